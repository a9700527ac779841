import Verif.Proofs.CheckCG
import Verif.Props.CGEqui

/-! # C136: what `CheckCG` certifies -/

namespace Snob.Props

open Snob SnVec Perm IP

section
variable {eig : Eig} (he : EigOk eig) {n : Nat} (hn : 1 ≤ n) (hN : n ≤ 1234567)
include he hn hN

/-- **C136.** Learning a pair of partitions never fails in the check: it produces one pair of vectors for each adjacent transposition. -/
theorem C136_defined {a b : List Nat} {x y : BPart} (hx : x.One n a) (hy : y.One n b) :
    ∃ L, checkCG eig x y = some L ∧ L.length = n - 1 := by
  obtain ⟨L, h1, h2, -⟩ := checkCG_iff he hn hN hx hy
  exact ⟨L, h1, h2⟩

/-- **C136.** The check only tries adjacent transpositions, and yet it misses nothing: the pairs agree for all parts of two partitions
exactly when the product of these parts commutes with every permutation. -/
theorem C136_certifies {a b : List Nat} (ha : IsPartition n a) (hb : IsPartition n b) :
    (∀ x y : BPart, x.One n a → y.One n b → ∃ L, checkCG eig x y = some L ∧ Agree L) ↔ ∀ s, IsPerm n s → CGCommutes eig n a b s := by
  constructor
  · rintro h s ⟨σ, rfl⟩
    rw [cgCommutes_iff he hn hN ha hb]
    refine equiAt_all hn ha hb (fun k hk => equiAt_iff.2 fun f g => ?_) σ
    have one : ∀ (c : List Nat) (hc : IsPartition n c) (f : Nat → ℝ), (mkB 1 c 1 fun _ i _ => f i).One n c := fun c hc f =>
      ⟨SnVecB.ok_of_member (k := 0) (fun P hP => by rw [List.mem_singleton.1 hP]; rfl) (partAt_single hn hc 1 fun i _ => f i).1,
        (irrOf_spec hn hc).2.1, rfl⟩
    obtain ⟨L, h1, h2⟩ := h _ _ (one a ha f) (one b hb g)
    obtain ⟨L', h3, -, h4⟩ := checkCG_iff he hn hN (one a ha f) (one b hb g)
    obtain rfl := Option.some.inj (h1.symm.trans h3)
    exact h4.1 h2 k hk
  · intro h x y hx hy
    obtain ⟨L, h1, -, h2⟩ := checkCG_iff he hn hN hx hy
    refine ⟨L, h1, h2.2 fun k hk => ?_⟩
    exact equiAt_iff.1 ((cgCommutes_iff he hn hN ha hb _).1 (h _ ⟨adj n k, rfl⟩)) _ _

/-- **C136.** A disagreement is never exceptional: if the check disagrees for some parts `x0`, `y0`, then near any two parts there
are two for which it disagrees, and a step of any length in the direction of `x0` and of `y0` finds them. -/
theorem C136_generic {a b : List Nat} {x0 y0 : BPart} (hx0 : x0.One n a) (hy0 : y0.One n b) {L0 : List (SnVecB × SnVecB)}
    (h0 : checkCG eig x0 y0 = some L0) (hne : ¬ Agree L0) {x y : BPart} (hx : x.One n a) (hy : y.One n b) {t : ℝ} (ht : t ≠ 0) :
    ∃ u v L, (u = x ∨ u = x.plus t x0) ∧ (v = y ∨ v = y.plus t y0) ∧ checkCG eig u v = some L ∧ ¬ Agree L := by
  by_contra hcon
  have plus : ∀ {c : List Nat} {z z0 : BPart}, z.One n c → (z.plus t z0).One n c := by
    intro c z z0 hz
    have h1 := hz.1.size z (by simp)
    have h2 := hz.1.part z (by simp)
    exact ⟨⟨fun P hP => by rw [List.mem_singleton.1 hP]; exact h1, fun P hP => by rw [List.mem_singleton.1 hP]; exact h2, by simp⟩, hz.2⟩
  have key : ∀ u v : BPart, u.One n a → v.One n b → (u = x ∨ u = x.plus t x0) → (v = y ∨ v = y.plus t y0) → ∀ k, k + 1 < n → ∀ p, IsPartition n p →
      ∀ c < kronN n a b p, ∀ r < dimOf p, defectForm n (cgPhi eig n) a b (adj n k) (u.data 0 · 0) (v.data 0 · 0) p c r = 0 := by
    intro u v hu hv eu ev
    obtain ⟨L, h1, -, h2⟩ := checkCG_iff he hn hN hu hv
    refine h2.1 ?_
    by_contra hL
    exact hcon ⟨u, v, L, eu, ev, h1, hL⟩
  obtain ⟨L, h1, -, h2⟩ := checkCG_iff he hn hN hx0 hy0
  obtain rfl := Option.some.inj (h0.symm.trans h1)
  refine hne (h2.2 fun k hk p hp c hc r hr => ?_)
  have e := defectForm_four (Φ := cgPhi eig n) (a := a) (b := b) (adj n k) (x.data 0 · 0) (y.data 0 · 0) (x0.data 0 · 0) (y0.data 0 · 0) t p c r
  have k1 := key _ _ (plus (z0 := x0) hx) (plus (z0 := y0) hy) (Or.inr rfl) (Or.inr rfl) k hk p hp c hc r hr
  have k2 := key _ _ (plus (z0 := x0) hx) hy (Or.inr rfl) (Or.inl rfl) k hk p hp c hc r hr
  have k3 := key _ _ hx (plus (z0 := y0) hy) (Or.inl rfl) (Or.inr rfl) k hk p hp c hc r hr
  have k4 := key _ _ hx hy (Or.inl rfl) (Or.inl rfl) k hk p hp c hc r hr
  simp only [BPart.plus] at k1 k2 k3
  rw [k1, k2, k3, k4] at e
  have e' : t * t * defectForm n (cgPhi eig n) a b (adj n k) (x0.data 0 · 0) (y0.data 0 · 0) p c r = 0 := by rw [← e]; ring
  exact (mul_eq_zero.1 e').resolve_left (mul_ne_zero ht ht)

/-- **C136 (up to three letters).** The check always agrees. Missing: it does not from five letters on, `C136_disagree`. -/
theorem C136_agree_partial (h3 : n ≤ 3) {a b : List Nat} (ha : IsPartition n a) (hb : IsPartition n b) {x y : BPart} (hx : x.One n a) (hy : y.One n b) :
    ∃ L, checkCG eig x y = some L ∧ Agree L := by
  refine (C136_certifies he hn hN ha hb).2 (fun s hs P Q hP hQ _ _ mP mQ => ?_) x y hx hy
  exact C73_equivariant_partial he hn hN h3 hP hQ (by simpa using mP) (by simpa using mQ) hs

end

/-- **C136.** From five letters on there are two partitions for which the check disagrees, whatever the eigenvalue solver: near any two
parts there are parts that show it. -/
theorem C136_disagree {eig : Eig} (he : EigOk eig) {n : Nat} (hn : 5 ≤ n) (hN : n ≤ 1234567) :
    ∃ a b, IsPartition n a ∧ IsPartition n b ∧ ∃ x0 y0 : BPart, x0.One n a ∧ y0.One n b ∧ ∀ x y : BPart, x.One n a → y.One n b → ∀ t : ℝ, t ≠ 0 →
      ∃ u v L, (u = x ∨ u = x.plus t x0) ∧ (v = y ∨ v = y.plus t y0) ∧ checkCG eig u v = some L ∧ ¬ Agree L := by
  obtain ⟨P, Q, s, hP, hQ, mP, mQ, hs, S, R', h1, h2, h3⟩ := C73_not_equivariant he hn hN
  have ha := (hP.part P (by simp)).1
  have hb := (hQ.part Q (by simp)).1
  have hno : ¬ ∀ x y : BPart, x.One n P.irrep.lambda → y.One n Q.irrep.lambda → ∃ L, checkCG eig x y = some L ∧ Agree L := by
    intro h
    obtain ⟨S', R'', g1, g2, g3⟩ := (C136_certifies he (by omega) hN ha hb).1 h s hs P Q hP hQ rfl rfl mP mQ
    obtain rfl := Option.some.inj (h1.symm.trans g1)
    obtain rfl := Option.some.inj (h2.symm.trans g2)
    exact h3 g3
  push Not at hno
  obtain ⟨x0, y0, hx0, hy0, h⟩ := hno
  obtain ⟨L0, e0, -⟩ := C136_defined he (by omega) hN hx0 hy0
  exact ⟨_, _, ha, hb, x0, y0, hx0, hy0, fun x y hx hy t ht => C136_generic he (by omega) hN hx0 hy0 e0 (h L0 e0) hx hy ht⟩

/-- the two partitions of two letters whose product is checked below: a sign and a sign -/
example : ∃ L, checkCG eigS (mkB 1 [1, 1] 1 fun _ _ _ => 2) (mkB 1 [1, 1] 1 fun _ _ _ => 3) = some L ∧ L.length = 1 ∧ Agree L := by
  have hp : IsPartition 2 [1, 1] := ⟨by decide, by decide, by decide⟩
  have one : ∀ r : ℝ, (mkB 1 [1, 1] 1 fun _ _ _ => r).One 2 [1, 1] := fun r =>
    ⟨SnVecB.ok_of_member (k := 0) (fun P hP => by rw [List.mem_singleton.1 hP]; rfl) (partAt_single (by norm_num) hp 1 fun _ _ => r).1,
      (irrOf_spec (by norm_num) hp).2.1, rfl⟩
  obtain ⟨L, h1, h2⟩ := C136_agree_partial eigS_ok (by norm_num) (by norm_num) (by norm_num) hp hp (one 2) (one 3)
  obtain ⟨L', h3, h4⟩ := C136_defined eigS_ok (by norm_num) (by norm_num) (one 2) (one 3)
  obtain rfl := Option.some.inj (h1.symm.trans h3)
  exact ⟨L, h1, h4, h2⟩

end Snob.Props
