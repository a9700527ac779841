import Verif.Proofs.FFTLossEnd
import Verif.Proofs.FFTSpec
import Mathlib.LinearAlgebra.FiniteDimensional.Lemmas

/-! # The forward transform is linear and its being defined does not depend on the data -/

namespace Snob

open IP Snob.Perm
open scoped Nat

section
variable {K : Type} [DecidableEq K] {a b : ℝ}

/-- `C` is `a A + b B` in column `k` -/
def Comb (a b : ℝ) (A B C : Nat → K → ℝ) (k : K) : Prop := ∀ i, C i k = a * A i k + b * B i k

/-- an operation that is defined for all data or for none, and linear column by column -/
def Lin3 (a b : ℝ) (op : (Nat → K → ℝ) → Option (Nat → K → ℝ)) : Prop :=
  ∀ A A', op A = some A' → ∀ B C, ∃ B' C', op B = some B' ∧ op C = some C' ∧ ∀ k, Comb a b A B C k → Comb a b A' B' C' k

theorem Lin3.pure : Lin3 a b (fun A : Nat → K → ℝ => some A) := fun A A' h B C => by
  obtain rfl := Option.some.inj h
  exact ⟨B, C, rfl, rfl, fun k h => h⟩

theorem Lin3.bind {f g : (Nat → K → ℝ) → Option (Nat → K → ℝ)} (hf : Lin3 a b f) (hg : Lin3 a b g) :
    Lin3 a b (fun A => (f A).bind g) := fun A A' h B C => by
  obtain ⟨A1, h1, h2⟩ := Option.bind_eq_some_iff.1 h
  obtain ⟨B1, C1, b1, c1, k1⟩ := hf A A1 h1 B C
  obtain ⟨B2, C2, b2, c2, k2⟩ := hg A1 A' h2 B1 C1
  exact ⟨B2, C2, by simp [b1, b2], by simp [c1, c2], fun k h => k2 k (k1 k h)⟩

theorem Lin3.iterUp {body : Int → (Nat → K → ℝ) → Option (Nat → K → ℝ)} (h : ∀ i, Lin3 a b (body i)) :
    ∀ (c : Nat) (i : Int), Lin3 a b (iterUp body c i)
  | 0, _ => Lin3.pure
  | c + 1, i => Lin3.bind (h i) (Lin3.iterUp h c (i + 1))

theorem Lin3.iterDown {body : Int → (Nat → K → ℝ) → Option (Nat → K → ℝ)} (h : ∀ i, Lin3 a b (body i)) :
    ∀ (c : Nat) (i : Int), Lin3 a b (iterDown body c i)
  | 0, _ => Lin3.pure
  | c + 1, i => Lin3.bind (h i) (Lin3.iterDown h c (i - 1))

theorem comb_setv {A B C : Nat → K → ℝ} {i : Nat} {k k' : K} {x y z : ℝ} (h : Comb a b A B C k) (hz : k = k' → z = a * x + b * y) :
    Comb a b (setv A i k' x) (setv B i k' y) (setv C i k' z) k := by
  intro j
  unfold setv
  by_cases e : j = i ∧ k = k'
  · rw [if_pos e, if_pos e, if_pos e, hz e.2]
  · rw [if_neg e, if_neg e, if_neg e, h j]

theorem comb_scaleRow (i : Nat) (c : ℝ) (k : K) : ∀ (ks : List K) (A B C : Nat → K → ℝ), Comb a b A B C k →
    Comb a b (IrrepObj.scaleRow i c ks A) (IrrepObj.scaleRow i c ks B) (IrrepObj.scaleRow i c ks C) k
  | [], _, _, _, h => h
  | k' :: ks, A, B, C, h => comb_scaleRow i c k ks _ _ _ (comb_setv h (by rintro rfl; rw [h i]; ring))

theorem comb_mixRows (i j : Nat) (c d : ℝ) (k : K) : ∀ (ks : List K) (A B C : Nat → K → ℝ), Comb a b A B C k →
    Comb a b (IrrepObj.mixRows i j c d ks A) (IrrepObj.mixRows i j c d ks B) (IrrepObj.mixRows i j c d ks C) k
  | [], _, _, _, h => h
  | k' :: ks, A, B, C, h => by
    have h1 : Comb a b (setv A i k' (c * A i k' + d * A j k')) (setv B i k' (c * B i k' + d * B j k'))
        (setv C i k' (c * C i k' + d * C j k')) k := comb_setv h (by rintro rfl; rw [h i, h j]; ring)
    exact comb_mixRows i j c d k ks _ _ _ (comb_setv h1 (by rintro rfl; rw [h1 j, h i]; ring))

theorem lin_tauView (R : IrrepObj) (cols : List K) (tau : Int) : Lin3 a b (R.applyTauView cols tau) := by
  intro A A' h B C
  unfold IrrepObj.applyTauView at h ⊢
  split at h
  · rename_i hr
    rw [if_pos hr, if_pos hr]
    cases e1 : computeYORtensors R.n R.tableaux with
    | none => rw [e1] at h; cases h
    | some tabs =>
      rw [e1] at h
      simp only at h ⊢
      cases e2 : tabs[(tau - 1).toNat]? with
      | none => rw [e2] at h; cases h
      | some st =>
        rw [e2] at h
        simp only at h ⊢
        obtain rfl := Option.some.inj h
        refine ⟨_, _, rfl, rfl, fun k hk => ?_⟩
        have hs : ∀ (l : List (Nat × ℝ)) (A B C : Nat → K → ℝ), Comb a b A B C k →
            Comb a b (l.foldl (fun A (x : Nat × ℝ) => IrrepObj.scaleRow x.1 x.2 cols A) A)
              (l.foldl (fun A (x : Nat × ℝ) => IrrepObj.scaleRow x.1 x.2 cols A) B)
              (l.foldl (fun A (x : Nat × ℝ) => IrrepObj.scaleRow x.1 x.2 cols A) C) k := by
          intro l
          induction l with
          | nil => intro A B C h; exact h
          | cons x l ih => intro A B C h; exact ih _ _ _ (comb_scaleRow _ _ _ _ _ _ _ h)
        have hg : ∀ (l : List GSlot) (A B C : Nat → K → ℝ), Comb a b A B C k →
            Comb a b (l.foldl (fun A (g : GSlot) => IrrepObj.mixRows g.i g.j g.c1 g.c2 cols A) A)
              (l.foldl (fun A (g : GSlot) => IrrepObj.mixRows g.i g.j g.c1 g.c2 cols A) B)
              (l.foldl (fun A (g : GSlot) => IrrepObj.mixRows g.i g.j g.c1 g.c2 cols A) C) k := by
          intro l
          induction l with
          | nil => intro A B C h; exact h
          | cons x l ih => intro A B C h; exact ih _ _ _ (comb_mixRows _ _ _ _ _ _ _ _ _ h)
        exact hg _ _ _ _ (hs _ _ _ _ hk)
  · cases h

theorem lin_cycle (R : IrrepObj) (cols : List (Nat × Nat)) (x y : Int) : Lin3 a b (cycleWith viewAct R cols x y) := by
  unfold cycleWith
  split
  · exact Lin3.iterDown (fun i => lin_tauView R cols i) _ _
  · exact Lin3.iterUp (fun i => lin_tauView R cols i) _ _

/-- three parts of the same dimensions, the third a combination of the others -/
structure Tri (a b : ℝ) (P Q R : MPart) : Prop where
  N2 : Q.N = P.N
  N3 : R.N = P.N
  d2 : Q.d = P.d
  d3 : R.d = P.d
  m2 : Q.m = P.m
  m3 : R.m = P.m
  i2 : Q.irrep = P.irrep
  i3 : R.irrep = P.irrep
  data : ∀ k : Nat × Nat, k.1 < P.N → Comb a b P.data Q.data R.data k

theorem Tri.addToBlock {P1 P2 P3 M1 M2 M3 P1' : MPart} {io jo : Nat} (hP : Tri a b P1 P2 P3) (hM : Tri a b M1 M2 M3)
    (h : P1.addToBlock io jo M1 = some P1') :
    ∃ P2' P3', P2.addToBlock io jo M2 = some P2' ∧ P3.addToBlock io jo M3 = some P3' ∧ Tri a b P1' P2' P3' := by
  unfold MPart.addToBlock at h ⊢
  split at h
  · rename_i hc
    obtain rfl := Option.some.inj h
    rw [if_pos (by rw [hM.N2, hP.N2, hM.d2, hP.d2, hM.m2, hP.m2]; exact hc),
      if_pos (by rw [hM.N3, hP.N3, hM.d3, hP.d3, hM.m3, hP.m3]; exact hc)]
    refine ⟨_, _, rfl, rfl, hP.N2, hP.N3, hP.d2, hP.d3, hP.m2, hP.m3, hP.i2, hP.i3, fun k hk i => ?_⟩
    simp only
    rw [hM.d2, hM.d3, hM.m2, hM.m3]
    have h1 := hP.data k hk i
    have h2 := hM.data (k.1, k.2 - jo) (by rw [hc.1]; exact hk) (i - io)
    split
    · rw [h1, h2]; ring
    · exact h1
  · cases h

theorem Tri.reduce {P1 P2 P3 P1' : MPart} (hP : Tri a b P1 P2 P3) (h : P1.reduce = some P1') :
    ∃ P2' P3', P2.reduce = some P2' ∧ P3.reduce = some P3' ∧ Tri a b P1' P2' P3' := by
  unfold MPart.reduce at h ⊢
  simp only [hP.i2, hP.i3] at h ⊢
  split at h
  · cases h
  · rename_i hn
    obtain rfl := Option.some.inj h
    rw [if_neg hn, if_neg hn]
    refine ⟨_, _, rfl, rfl, by simp only [hP.N2], by simp only [hP.N3], hP.d2, hP.d3, hP.m2, hP.m3, rfl, rfl, fun k hk i => ?_⟩
    simp only at hk ⊢
    have : ∀ t < IP.getn P1.irrep.lambda, P3.data i (k.1 * IP.getn P1.irrep.lambda + t, k.2) =
        a * P1.data i (k.1 * IP.getn P1.irrep.lambda + t, k.2) + b * P2.data i (k.1 * IP.getn P1.irrep.lambda + t, k.2) := by
      intro t ht
      refine hP.data _ ?_ i
      have h1 := Nat.div_mul_le_self P1.N (IP.getn P1.irrep.lambda)
      have h2 : (k.1 + 1) * IP.getn P1.irrep.lambda ≤ P1.N / IP.getn P1.irrep.lambda * IP.getn P1.irrep.lambda := Nat.mul_le_mul_right _ hk
      rw [Nat.add_mul, Nat.one_mul] at h2
      show k.1 * IP.getn P1.irrep.lambda + t < P1.N
      omega
    have gen : ∀ (x : Nat), x ≤ IP.getn P1.irrep.lambda →
        ((List.range x).map fun t => P3.data i (k.1 * IP.getn P1.irrep.lambda + t, k.2)).sum =
        a * ((List.range x).map fun t => P1.data i (k.1 * IP.getn P1.irrep.lambda + t, k.2)).sum +
        b * ((List.range x).map fun t => P2.data i (k.1 * IP.getn P1.irrep.lambda + t, k.2)).sum := by
      intro x
      induction x with
      | zero => intro _; simp
      | succ x ih =>
        intro hx
        simp only [List.range_succ, List.map_append, List.map_cons, List.map_nil, List.sum_append, List.sum_cons, List.sum_nil]
        rw [ih (by omega), this x (by omega)]
        ring
    exact gen _ (Nat.le_refl _)

theorem Tri.twistUp {P1 P2 P3 P1' : MPart} {n newN : Nat} (hP : Tri a b P1 P2 P3) (h : twistUp viewAct n newN P1 = some P1') :
    ∃ P2' P3', twistUp viewAct n newN P2 = some P2' ∧ twistUp viewAct n newN P3 = some P3' ∧ Tri a b P1' P2' P3' := by
  unfold Snob.twistUp at h ⊢
  simp only [Option.bind_eq_bind, Option.bind_eq_some_iff] at h
  obtain ⟨A, hA, h⟩ := h
  obtain rfl := Option.some.inj h
  have hl : Lin3 a b (fun D => forUp 0 n D fun j A =>
      cycleWith viewAct P1.irrep (sliceCols newN n P1.m j.toNat) ((n : Int) - j) n A) :=
    Lin3.iterUp (fun j => lin_cycle _ _ _ _) _ _
  obtain ⟨B, C, hB, hC, hk⟩ := hl P1.data A hA P2.data P3.data
  rw [hP.i2, hP.i3, hP.m2, hP.m3]
  simp only at hB hC
  rw [hB, hC]
  exact ⟨_, _, rfl, rfl, hP.N2, hP.N3, hP.d2, hP.d3, rfl, rfl, rfl, rfl, fun k hk' => hk k (hP.data k hk')⟩

/-- three lists of parts -/
def TriL {α : Type} (T : α → α → α → Prop) (v1 v2 v3 : List α) : Prop :=
  v2.length = v1.length ∧ v3.length = v1.length ∧
    ∀ (i : Nat) (P Q R : α), v1[i]? = some P → v2[i]? = some Q → v3[i]? = some R → T P Q R

theorem TriL.get {α : Type} {T : α → α → α → Prop} {v1 v2 v3 : List α} (h : TriL T v1 v2 v3) {i : Nat} {P : α} (hi : v1[i]? = some P) :
    ∃ Q R, v2[i]? = some Q ∧ v3[i]? = some R ∧ T P Q R := by
  have hlt := (List.getElem?_eq_some_iff.1 hi).1
  have h2 := List.getElem?_eq_getElem (show i < v2.length by rw [h.1]; exact hlt)
  have h3 := List.getElem?_eq_getElem (show i < v3.length by rw [h.2.1]; exact hlt)
  exact ⟨_, _, h2, h3, h.2.2 i _ _ _ hi h2 h3⟩

theorem tri_blockLoop {v1 v2 v3 : List MPart} (hv : TriL (Tri a b) v1 v2 v3) : ∀ (bs : List BlockT) (P1 P2 P3 P1' : MPart),
    Tri a b P1 P2 P3 → blockLoop v1 bs P1 = some P1' →
    ∃ P2' P3', blockLoop v2 bs P2 = some P2' ∧ blockLoop v3 bs P3 = some P3' ∧ Tri a b P1' P2' P3'
  | [], P1, P2, P3, P1', hP, h => by
    obtain rfl := Option.some.inj h
    exact ⟨P2, P3, rfl, rfl, hP⟩
  | c :: bs, P1, P2, P3, P1', hP, h => by
    simp only [blockLoop, Option.bind_eq_bind, Option.bind_eq_some_iff] at h ⊢
    obtain ⟨M1, hM1, P, hP1, h⟩ := h
    obtain ⟨M2, M3, hM2, hM3, hM⟩ := hv.get hM1
    obtain ⟨Q2, Q3, hQ2, hQ3, hQ⟩ := hP.addToBlock hM hP1
    obtain ⟨S2, S3, hS2, hS3, hS⟩ := tri_blockLoop hv bs P Q2 Q3 P1' hQ h
    exact ⟨S2, S3, ⟨M2, hM2, Q2, hQ2, hS2⟩, ⟨M3, hM3, Q3, hQ3, hS3⟩, hS⟩

/-- elementwise operations on three lists -/
theorem tri_mapM {α β : Type} {T : α → α → α → Prop} {T' : β → β → β → Prop} {v1 v2 v3 : List α} (hv : TriL T v1 v2 v3) {f : α → Option β}
    (hf : ∀ P Q R P', T P Q R → f P = some P' → ∃ Q' R', f Q = some Q' ∧ f R = some R' ∧ T' P' Q' R') {w1 : List β}
    (h : v1.mapM f = some w1) : ∃ w2 w3, v2.mapM f = some w2 ∧ v3.mapM f = some w3 ∧ TriL T' w1 w2 w3 := by
  obtain ⟨l1, k1⟩ := (mapM_some_iff _ _ _).1 h
  have inv2 : ∀ (i : Nat) (Q : α), v2[i]? = some Q → ∃ P R, v1[i]? = some P ∧ v3[i]? = some R := by
    intro i Q hQ
    have hlt := (List.getElem?_eq_some_iff.1 hQ).1
    exact ⟨_, _, List.getElem?_eq_getElem (by rw [← hv.1]; exact hlt), List.getElem?_eq_getElem (by rw [hv.2.1, ← hv.1]; exact hlt)⟩
  have inv3 : ∀ (i : Nat) (R : α), v3[i]? = some R → ∃ P Q, v1[i]? = some P ∧ v2[i]? = some Q := by
    intro i Q hQ
    have hlt := (List.getElem?_eq_some_iff.1 hQ).1
    exact ⟨_, _, List.getElem?_eq_getElem (by rw [← hv.2.1]; exact hlt), List.getElem?_eq_getElem (by rw [hv.1, ← hv.2.1]; exact hlt)⟩
  obtain ⟨w2, e2, l2, k2⟩ := mapM_exists f v2 (fun _ _ _ => True) fun i Q hQ => by
    obtain ⟨P, R, hP, hR⟩ := inv2 i Q hQ
    obtain ⟨P', -, hP'⟩ := k1 i P hP
    obtain ⟨Q', R', hQ', -, -⟩ := hf P Q R P' (hv.2.2 i P Q R hP hQ hR) hP'
    exact ⟨Q', hQ', trivial⟩
  obtain ⟨w3, e3, l3, k3⟩ := mapM_exists f v3 (fun _ _ _ => True) fun i R hR => by
    obtain ⟨P, Q, hP, hQ⟩ := inv3 i R hR
    obtain ⟨P', -, hP'⟩ := k1 i P hP
    obtain ⟨Q', R', -, hR', -⟩ := hf P Q R P' (hv.2.2 i P Q R hP hQ hR) hP'
    exact ⟨R', hR', trivial⟩
  refine ⟨w2, w3, e2, e3, by rw [l2, l1, hv.1], by rw [l3, l1, hv.2.1], fun i P' Q' R' hP' hQ' hR' => ?_⟩
  have hi : i < v1.length := by rw [← l1]; exact (List.getElem?_eq_some_iff.1 hP').1
  have hP := List.getElem?_eq_getElem hi
  obtain ⟨Q, R, hQ, hR, hT⟩ := hv.get hP
  obtain ⟨P'', a1, a2⟩ := k1 i _ hP
  obtain rfl : P' = P'' := Option.some.inj (hP'.symm.trans a1)
  obtain ⟨Q'', R'', b1, b2, b3⟩ := hf _ _ _ _ hT a2
  obtain ⟨x, c1, c2⟩ := ((mapM_some_iff _ _ _).1 e2).2 i Q hQ
  obtain ⟨y, d1, d2⟩ := ((mapM_some_iff _ _ _).1 e3).2 i R hR
  obtain rfl : Q' = x := Option.some.inj (hQ'.symm.trans c1)
  obtain rfl : R' = y := Option.some.inj (hR'.symm.trans d1)
  obtain rfl : Q' = Q'' := Option.some.inj (c2.symm.trans b1)
  obtain rfl : R' = R'' := Option.some.inj (d2.symm.trans b2)
  exact b3

theorem tri_vecN {v1 v2 v3 : List MPart} (hv : TriL (Tri a b) v1 v2 v3) {N : Nat} (h : vecN v1 = some N) :
    vecN v2 = some N ∧ vecN v3 = some N := by
  unfold vecN at h ⊢
  rw [List.head?_eq_getElem?] at h ⊢
  obtain ⟨P, hP, rfl⟩ := Option.map_eq_some_iff.1 h
  obtain ⟨Q, R, hQ, hR, hT⟩ := hv.get hP
  rw [hQ, List.head?_eq_getElem?, hR]
  exact ⟨congrArg some hT.N2, congrArg some hT.N3⟩

theorem tri_up (L : LevelT) {v1 v2 v3 w1 : List MPart} (hv : TriL (Tri a b) v1 v2 v3) (h : L.uptransform viewAct v1 = some w1) :
    ∃ w2 w3, L.uptransform viewAct v2 = some w2 ∧ L.uptransform viewAct v3 = some w3 ∧ TriL (Tri a b) w1 w2 w3 := by
  unfold LevelT.uptransform at h ⊢
  simp only [Option.bind_eq_bind, Option.bind_eq_some_iff] at h
  obtain ⟨N, hN, x1, hx1, h⟩ := h
  obtain ⟨hN2, hN3⟩ := tri_vecN hv hN
  obtain ⟨l1, k1⟩ := (mapM_some_iff _ _ _).1 hx1
  have part : ∀ p x, ((p : PartT).uptransform v1).bind (twistUp viewAct L.n (N / L.n)) = some x → ∃ y z,
      (p.uptransform v2).bind (twistUp viewAct L.n (N / L.n)) = some y ∧
      (p.uptransform v3).bind (twistUp viewAct L.n (N / L.n)) = some z ∧ Tri a b x y z := by
    intro p x hx
    obtain ⟨q, hq, hx⟩ := Option.bind_eq_some_iff.1 hx
    unfold PartT.uptransform at hq ⊢
    simp only [Option.bind_eq_bind, hN, hN2, hN3, Option.bind_some] at hq ⊢
    obtain ⟨q2, q3, e2, e3, hT⟩ := tri_blockLoop hv p.blocks (MPart.zero N p.irrep p.m) (MPart.zero N p.irrep p.m) (MPart.zero N p.irrep p.m) q
      ⟨rfl, rfl, rfl, rfl, rfl, rfl, rfl, rfl, fun k _ i => by simp [MPart.zero]⟩ hq
    obtain ⟨y, z, f2, f3, hT'⟩ := hT.twistUp hx
    exact ⟨y, z, by simp [e2, f2], by simp [e3, f3], hT'⟩
  obtain ⟨x2, e2, l2, k2⟩ := mapM_exists (fun p => (PartT.uptransform p v2).bind (twistUp viewAct L.n (N / L.n))) L.parts (fun _ _ _ => True)
    fun i p hp => by
      obtain ⟨x, -, hx⟩ := k1 i p hp
      obtain ⟨y, z, hy, -, -⟩ := part p x hx
      exact ⟨y, hy, trivial⟩
  obtain ⟨x3, e3, l3, k3⟩ := mapM_exists (fun p => (PartT.uptransform p v3).bind (twistUp viewAct L.n (N / L.n))) L.parts (fun _ _ _ => True)
    fun i p hp => by
      obtain ⟨x, -, hx⟩ := k1 i p hp
      obtain ⟨y, z, -, hz, -⟩ := part p x hx
      exact ⟨z, hz, trivial⟩
  have hx : TriL (Tri a b) x1 x2 x3 := by
    refine ⟨by rw [l2, l1], by rw [l3, l1], fun i x y z hx hy hz => ?_⟩
    have hi : i < L.parts.length := by rw [← l1]; exact (List.getElem?_eq_some_iff.1 hx).1
    have hp := List.getElem?_eq_getElem hi
    obtain ⟨x', a1, a2⟩ := k1 i _ hp
    obtain rfl : x = x' := Option.some.inj (hx.symm.trans a1)
    obtain ⟨y', z', b1, b2, b3⟩ := part _ x a2
    obtain ⟨y'', c1, c2⟩ := ((mapM_some_iff _ _ _).1 e2).2 i _ hp
    obtain ⟨z'', d1, d2⟩ := ((mapM_some_iff _ _ _).1 e3).2 i _ hp
    obtain rfl : y = y'' := Option.some.inj (hy.symm.trans c1)
    obtain rfl : z = z'' := Option.some.inj (hz.symm.trans d1)
    obtain rfl : y = y' := Option.some.inj (c2.symm.trans b1)
    obtain rfl : z = z' := Option.some.inj (d2.symm.trans b2)
    exact b3
  obtain ⟨w2, w3, f2, f3, hw⟩ := tri_mapM hx (fun P Q R P' hT hP => hT.reduce hP) h
  refine ⟨w2, w3, ?_, ?_, hw⟩
  · simp only [Option.bind_eq_bind, hN2, Option.bind_some, e2, f2]
  · simp only [Option.bind_eq_bind, hN3, Option.bind_some, e3, f3]

theorem tri_upLoop : ∀ (Ls : List LevelT) {v1 v2 v3 w1 : List MPart}, TriL (Tri a b) v1 v2 v3 → upLoop viewAct Ls v1 = some w1 →
    ∃ w2 w3, upLoop viewAct Ls v2 = some w2 ∧ upLoop viewAct Ls v3 = some w3 ∧ TriL (Tri a b) w1 w2 w3
  | [], v1, v2, v3, w1, hv, h => by
    obtain rfl := Option.some.inj h
    exact ⟨v2, v3, rfl, rfl, hv⟩
  | L :: Ls, v1, v2, v3, w1, hv, h => by
    obtain ⟨x1, h1, h2⟩ := Option.bind_eq_some_iff.1 h
    obtain ⟨x2, x3, e2, e3, hx⟩ := tri_up L hv h1
    obtain ⟨w2, w3, f2, f3, hw⟩ := tri_upLoop Ls hx h2
    exact ⟨w2, w3, by simp [upLoop, e2, f2], by simp [upLoop, e3, f3], hw⟩

/-- three results of the same dimensions, the third a combination of the others -/
structure TriV (a b : ℝ) (P Q R : VPart) : Prop where
  d2 : Q.d = P.d
  d3 : R.d = P.d
  m2 : Q.m = P.m
  m3 : R.m = P.m
  i2 : Q.irrep = P.irrep
  i3 : R.irrep = P.irrep
  data : ∀ i k, R.data i k = a * P.data i k + b * Q.data i k

theorem tri_fft (Ls : List LevelT) (N : Nat) {f1 f2 f3 : Nat → ℝ} (hf : ∀ e < N, f3 e = a * f1 e + b * f2 e) {w1 : List VPart}
    (h : fftWith viewAct Ls N f1 = some w1) :
    ∃ w2 w3, fftWith viewAct Ls N f2 = some w2 ∧ fftWith viewAct Ls N f3 = some w3 ∧ TriL (TriV a b) w1 w2 w3 := by
  unfold fftWith MPart.ofFunction at h ⊢
  simp only [Option.bind_eq_bind, Option.bind_eq_some_iff] at h
  obtain ⟨P, hP, v, hv, h⟩ := h
  obtain ⟨R, hR, rfl⟩ := Option.map_eq_some_iff.1 hP
  have h0 : TriL (Tri a b) [(⟨N, 1, 1, R, fun _ k => f1 k.1⟩ : MPart)] [⟨N, 1, 1, R, fun _ k => f2 k.1⟩] [⟨N, 1, 1, R, fun _ k => f3 k.1⟩] := by
    refine ⟨rfl, rfl, fun i P Q R hP hQ hR => ?_⟩
    rcases i with _ | i
    · simp only [List.getElem?_cons_zero, Option.some.injEq] at hP hQ hR
      subst hP hQ hR
      exact ⟨rfl, rfl, rfl, rfl, rfl, rfl, rfl, rfl, fun k hk _ => hf k.1 hk⟩
    · simp at hP
  obtain ⟨v2, v3, e2, e3, hv'⟩ := tri_upLoop _ h0 hv
  obtain ⟨w2, w3, g2, g3, hw⟩ := tri_mapM (T' := TriV a b) hv' (f := MPart.toPart) (fun P Q R P' hT hP => by
    unfold MPart.toPart at hP ⊢
    split at hP
    · rename_i hN
      obtain rfl := Option.some.inj hP
      rw [if_pos (by rw [hT.N2]; exact hN), if_pos (by rw [hT.N3]; exact hN)]
      exact ⟨_, _, rfl, rfl, hT.d2, hT.d3, hT.m2, hT.m3, hT.i2, hT.i3, fun i k => hT.data (0, k) (by rw [hN]; exact Nat.one_pos) i⟩
    · cases hP) h
  refine ⟨w2, w3, ?_, ?_, hw⟩
  · simp only [hR, Option.map_some, Option.bind_eq_bind, Option.bind_some, e2, g2]
  · simp only [hR, Option.map_some, Option.bind_eq_bind, Option.bind_some, e3, g3]

end

/-- the entry of a result at two words -/
noncomputable def entryW (m n : Nat) (ws : List VPart) (p : List Nat) (u w : Wd n p) : ℝ :=
  match ws[(PL m n).idxOf p]? with
  | some W => W.data (rowIx n p u.1) (colIx m n p w.1)
  | none => 0

theorem entryW_tri {a b : ℝ} {m n : Nat} {w1 w2 w3 : List VPart} (h : TriL (TriV a b) w1 w2 w3) (p : List Nat) (u w : Wd n p) :
    entryW m n w3 p u w = a * entryW m n w1 p u w + b * entryW m n w2 p u w := by
  unfold entryW
  cases e : w1[(PL m n).idxOf p]? with
  | some P =>
    obtain ⟨Q, R, hQ, hR, hT⟩ := h.get e
    rw [hQ, hR]
    exact hT.data _ _
  | none =>
    have h1 := List.getElem?_eq_none_iff.1 e
    have h2 : w2[(PL m n).idxOf p]? = none := List.getElem?_eq_none (by rw [h.1]; exact h1)
    have h3 : w3[(PL m n).idxOf p]? = none := List.getElem?_eq_none (by rw [h.2.1]; exact h1)
    rw [h2, h3]
    simp

theorem FOk.entry {m n : Nat} (hn : 0 < n) {F : (p : List Nat) → IsPartition n p → Wd n p → Wd n p → ℝ} {ws : List VPart} (h : FOk m n F ws)
    {p : List Nat} (hp : IsPartition n p) (u w : Wd n p) (hw : goodW m w.1 = true) (hrow : m ≤ row p 0) :
    entryW m n ws p u w = F p hp u w := by
  have hmem : p ∈ PL m n := (mem_PL hn p).2 ⟨hp, hrow⟩
  obtain ⟨W, a1, -, -, a4⟩ := h.part _ p hp (by rw [List.getElem?_eq_getElem (List.idxOf_lt_length_of_mem hmem), List.getElem_idxOf])
  unfold entryW
  rw [a1]
  exact a4 u w hw

theorem good_row {m n : Nat} {p : List Nat} (hp : IsPartition n p) (hm : m ≤ n) (w : Wd n p) (hw : goodW m w.1 = true) : m ≤ row p 0 := by
  rw [← ((mem_words hp w.1).1 w.2).2 0]
  exact goodW_count hw (by rw [w.length hp]; exact hm)

theorem invF_congr {m n : Nat} {F G : (p : List Nat) → IsPartition n p → Wd n p → Wd n p → ℝ}
    (h : ∀ p hp (u w : Wd n p), goodW m w.1 = true → F p hp u w = G p hp u w) (c : Nat) : invF m n F c = invF m n G c := by
  unfold invF
  refine Finset.sum_congr rfl fun p _ => ?_
  congr 1
  refine Finset.sum_congr rfl fun i _ => Finset.sum_congr rfl fun k _ => ?_
  split
  · rename_i hk
    rw [h _ _ _ _ hk]
  · rfl

theorem invF_lin {m n : Nat} (a b : ℝ) (F G : (p : List Nat) → IsPartition n p → Wd n p → Wd n p → ℝ) (c : Nat) :
    invF m n (fun p hp u w => a * F p hp u w + b * G p hp u w) c = a * invF m n F c + b * invF m n G c := by
  unfold invF
  rw [Finset.mul_sum, Finset.mul_sum, ← Finset.sum_add_distrib]
  refine Finset.sum_congr rfl fun p _ => ?_
  have : (∑ i, ∑ k, if goodW m k.1 = true then rho p.2 (elem n (c * m !))⁻¹ i k * (a * F p.1 p.2 i k + b * G p.1 p.2 i k) else 0) =
      a * (∑ i, ∑ k, if goodW m k.1 = true then rho p.2 (elem n (c * m !))⁻¹ i k * F p.1 p.2 i k else 0) +
      b * (∑ i, ∑ k, if goodW m k.1 = true then rho p.2 (elem n (c * m !))⁻¹ i k * G p.1 p.2 i k else 0) := by
    rw [Finset.mul_sum, Finset.mul_sum, ← Finset.sum_add_distrib]
    refine Finset.sum_congr rfl fun i _ => ?_
    rw [Finset.mul_sum, Finset.mul_sum, ← Finset.sum_add_distrib]
    refine Finset.sum_congr rfl fun k _ => ?_
    split <;> ring
  rw [this]
  ring

/-- the function with the transform of `f` is `f` -/
theorem invF_tF {m n : Nat} (hm : 0 < m) (hn : m < n) (f : Nat → ℝ) {e : Nat} (he : e < n ! / m !) :
    invF m n (fun p hp u w => tF m f n p hp 0 u w) e = f e := by
  obtain ⟨Ls, ws, h1, -, h3, h4, h5⟩ := fft_spec (ap := matAct) f hm (Or.inl hn) (fun k _ _ => matAct_ok m k)
  obtain ⟨Ls1, g1, a1, a2, a3⟩ := ifftWith_eq (ap := matAct) f hm (by omega) (fun k _ _ => matAct_ok m k) h4 (fun _ => h5)
  have h4' : FOk m n (fun p hp u w => tF m (invF m n (fun p hp u w => tF m f n p hp 0 u w)) n p hp 0 u w) ws := by
    refine ⟨h4.len, fun i p hp hi => ?_⟩
    obtain ⟨W, b1, b2, b3, b4⟩ := h4.part i p hp hi
    exact ⟨W, b1, b2, b3, fun u w hw => (b4 u w hw).trans (tF_invF hm (by omega) (fun p hp u w => tF m f n p hp 0 u w) p hp u w hw).symm⟩
  obtain ⟨Ls2, g2, c1, c2, c3⟩ := ifftWith_eq (ap := matAct) _ hm (by omega) (fun k _ _ => matAct_ok m k) h4' (fun _ => h5)
  obtain rfl : Ls1 = Ls2 := Option.some.inj (a1.symm.trans c1)
  obtain ⟨-, rfl⟩ := Prod.mk.inj (Option.some.inj (a2.symm.trans c2))
  rw [← c3 e he, a3 e he]

/-- not every vector of the right shape comes back from the inverse transform followed by the forward transform -/
theorem ifft_loss {m l0 : Nat} (hm : 0 < m) (hml : m + 1 ≤ l0) (h5 : 5 ≤ l0 + 1) {Ls : List LevelT} (hLs : fftLevels (l0 + 1) m = some Ls) :
    ¬ ∀ ws, HasShape (fun R => startCols m R.tableaux) (PL m (l0 + 1)) ws → ∃ N g ws', ifftWith viewAct Ls ws = some (N, g) ∧
      fftWith viewAct Ls ((l0 + 1)! / m !) g = some ws' ∧ SameVec ws ws' := by
  intro H
  have hn : m < l0 + 1 := by omega
  obtain ⟨c, hc, hloss⟩ := fft_loss hm hml h5
  -- every function is, up to the reference transform, in the range
  have hrange : ∀ f : Nat → ℝ, ∃ g ws', fftWith viewAct Ls ((l0 + 1)! / m !) g = some ws' ∧
      ∀ e < (l0 + 1)! / m !, invF m (l0 + 1) (fun p _ u w => entryW m (l0 + 1) ws' p u w) e = f e := by
    intro f
    obtain ⟨Ls', ws, h1, -, h3, h4, hlab⟩ := fft_spec (ap := matAct) f hm (Or.inl hn) (fun k _ _ => matAct_ok m k)
    obtain ⟨N, g, ws', k1, k2, k3⟩ := H ws (h4.hasShape hm (by omega) hlab)
    refine ⟨g, ws', k2, fun e he => ?_⟩
    rw [← invF_tF hm hn f he]
    refine invF_congr (fun p hp u w hw => ?_) e
    have hrow : m ≤ row p 0 := good_row hp (by omega) w hw
    rw [← h4.entry (by omega) hp u w hw hrow]
    have hmem : p ∈ PL m (l0 + 1) := (mem_PL (by omega) p).2 ⟨hp, hrow⟩
    obtain ⟨W, a1, a2, a3, a4⟩ := h4.part _ p hp (by rw [List.getElem?_eq_getElem (List.idxOf_lt_length_of_mem hmem), List.getElem_idxOf])
    have hlt : (PL m (l0 + 1)).idxOf p < ws'.length := by rw [← k3.1]; exact (List.getElem?_eq_some_iff.1 a1).1
    unfold entryW
    rw [a1, List.getElem?_eq_getElem hlt]
    refine ((k3.2 _ _ _ a1 (List.getElem?_eq_getElem hlt)).2.2.2 _ ?_ _ ?_).symm
    · rw [a2]; exact rowIx_lt u
    · rw [a3]; exact colIx_lt w hw
  -- the transform is defined for every function
  obtain ⟨g0, w0, hw0, -⟩ := hrange (fun _ => 0)
  have hdef : ∀ f : Nat → ℝ, ∃ ws, fftWith viewAct Ls ((l0 + 1)! / m !) f = some ws := fun f => by
    obtain ⟨w2, -, h, -⟩ := tri_fft (a := 0) (b := 1) Ls ((l0 + 1)! / m !) (f2 := f) (f3 := fun e => 0 * g0 e + 1 * f e) (fun _ _ => rfl) hw0
    exact ⟨w2, h⟩
  choose T hT using hdef
  let Θ : (Nat → ℝ) → Nat → ℝ := fun f e => invF m (l0 + 1) (fun p _ u w => entryW m (l0 + 1) (T f) p u w) e
  have hlin : ∀ (a b : ℝ) (f1 f2 f3 : Nat → ℝ), (∀ e < (l0 + 1)! / m !, f3 e = a * f1 e + b * f2 e) → ∀ e, Θ f3 e = a * Θ f1 e + b * Θ f2 e := by
    intro a b f1 f2 f3 hf e
    obtain ⟨w2, w3, k2, k3, ht⟩ := tri_fft Ls _ hf (hT f1)
    obtain rfl : w2 = T f2 := Option.some.inj (k2.symm.trans (hT f2))
    obtain rfl : w3 = T f3 := Option.some.inj (k3.symm.trans (hT f3))
    show invF m (l0 + 1) _ e = a * invF m (l0 + 1) _ e + b * invF m (l0 + 1) _ e
    rw [← invF_lin]
    exact invF_congr (fun p hp u w _ => entryW_tri ht p u w) e
  let ext : (Fin ((l0 + 1)! / m !) → ℝ) → Nat → ℝ := fun f e => if h : e < (l0 + 1)! / m ! then f ⟨e, h⟩ else 0
  let Φ : (Fin ((l0 + 1)! / m !) → ℝ) →ₗ[ℝ] (Fin ((l0 + 1)! / m !) → ℝ) :=
    { toFun := fun f e => Θ (ext f) e
      map_add' := fun f g => by
        funext e
        have := hlin 1 1 (ext f) (ext g) (ext (f + g)) (fun e he => by simp [ext, he]) e
        simpa using this
      map_smul' := fun r f => by
        funext e
        have := hlin r 0 (ext f) (ext f) (ext (r • f)) (fun e he => by simp [ext, he]) e
        simpa using this }
  have hext : ∀ g : Nat → ℝ, ∀ e, Θ (ext fun i => g i) e = Θ g e := fun g e => by
    have := hlin 1 0 g g (ext fun i => g i) (fun e he => by simp [ext, he]) e
    simpa using this
  have hsurj : Function.Surjective Φ := by
    intro f
    obtain ⟨g, ws', k1, k2⟩ := hrange (ext f)
    obtain rfl : ws' = T g := Option.some.inj (k1.symm.trans (hT g))
    refine ⟨fun i => g i, funext fun e => ?_⟩
    have h1 : Φ (fun i => g i) e = Θ g e := hext g e
    rw [h1]
    have h2 : Θ g e = ext f e := k2 e e.2
    rw [h2]
    simp [ext]
  have hinj : Function.Injective Φ := LinearMap.injective_iff_surjective.2 hsurj
  -- the function that is lost
  obtain ⟨⟨F, hF, -⟩, hlab, hlt⟩ := hloss Ls (T fun e => if e = c then 1 else 0) hLs (hT _)
  obtain ⟨N, g, ws', k1, k2, k3⟩ := H _ (hF.hasShape hm (by omega) hlab)
  obtain rfl : ws' = T g := Option.some.inj (k2.symm.trans (hT g))
  have heq : Φ (fun i => g i) = Φ (fun i => if (i : Nat) = c then 1 else 0) := by
    funext e
    have h1 : Φ (fun i => g i) e = Θ g e := hext g e
    have h2 : Φ (fun i => if (i : Nat) = c then 1 else 0) e = Θ (fun e => if e = c then 1 else 0) e := hext (fun e => if e = c then 1 else 0) e
    rw [h1, h2]
    refine invF_congr (fun p hp u w hw => ?_) e
    have hrow : m ≤ row p 0 := good_row hp (by omega) w hw
    have hmem : p ∈ PL m (l0 + 1) := (mem_PL (by omega) p).2 ⟨hp, hrow⟩
    obtain ⟨W, a1, a2, a3, a4⟩ := hF.part _ p hp (by rw [List.getElem?_eq_getElem (List.idxOf_lt_length_of_mem hmem), List.getElem_idxOf])
    have hlt : (PL m (l0 + 1)).idxOf p < (T g).length := by rw [← k3.1]; exact (List.getElem?_eq_some_iff.1 a1).1
    unfold entryW
    rw [a1, List.getElem?_eq_getElem hlt]
    refine ((k3.2 _ _ _ a1 (List.getElem?_eq_getElem hlt)).2.2.2 _ ?_ _ ?_).symm
    · rw [a2]; exact rowIx_lt u
    · rw [a3]; exact colIx_lt w hw
  have h1 := congrFun (hinj heq) ⟨c, hc⟩
  simp only [if_true] at h1
  have h2 := (hlt N g k1).2
  rw [h1] at h2
  exact lt_irrefl _ h2

end Snob
