import Verif.Proofs.LetterClose
import Verif.Props.LetterFloat

/-! # Property C142: programs in floating point commute with permutations up to rounding -/

namespace Snob.Props

open Snob SnVec Weights Perm

variable {n m : Nat}

/-- **C142.** Run a program without products that restricts and induces in floating point, on inputs and on inputs in which the first `m` letters
are permuted. Permuting the letters of a result of the first run gives that of the second up to a difference whose length (the square root of the
sum of the squares of its entries) is at most `(1+u)^D-1` times the lengths of the vectors computed from the absolute values of the inputs and of
the permuted inputs, `D` as in C141. -/
theorem C142_equivariant (F : Rounding) (u : ℝ) (hs : RelErr u F.s) (hu : 0 ≤ u) (ord : Nat → SumTree) (hord : ∀ c, 1 ≤ c → (ord c).Covers c)
    (eig : Eig) (hm : 1 ≤ m) (p : List LStmt) (hp : ∀ c ∈ p, c.Linear) (xs xs' : List SnVec) {a : Arr} (ha : IsPerm m a)
    (hx : List.Forall₂ (ActedBy m a) xs xs') (hF : LStmt.AllFit eig m p xs) (s : List SnVec) (h : LStmt.run eig p xs = some s) (C : Nat)
    (hC : ∀ w ∈ s, ∀ P ∈ w, P.m ≤ C) :
    ∃ s1 s2 b1 b2, F.lrun ord p xs = some s1 ∧ F.lrun ord p xs' = some s2 ∧ LStmt.run eig (p.map LStmt.abs) (xs.map absVec) = some b1 ∧
      LStmt.run eig (p.map LStmt.abs) (xs'.map absVec) = some b2 ∧ s1.length = s.length ∧ s2.length = s.length ∧
      ∀ (i : Nat) (w1 : SnVec), s1[i]? = some w1 → ∃ w2 a1 a2 z d, s2[i]? = some w2 ∧ b1[i]? = some a1 ∧ b2[i]? = some a2 ∧
        ActedBy m a w1 z ∧ IsComb (-1) d z w2 ∧
        √(dot d d) ≤ ((1 + u) ^ (p.map (LStmt.cost C)).sum - 1) * (√(dot a1 a1) + √(dot a2 a2)) := by
  obtain ⟨π, rfl⟩ := ha
  have hmv : List.Forall₂ (MovedTo π) xs xs' := hx.imp fun _ _ q => movedTo_of hm q
  obtain ⟨r, r1, r2⟩ := (letRel_moved eig hm π).run (fun c hc => Or.inl (hp c hc)) hmv hF h
  have hF' : LStmt.AllFit eig m p xs' :=
    (C140_fits_types hm p (fun c hc => Or.inl (hp c hc)) xs xs' (hmv.imp fun _ _ ⟨d, q⟩ => ⟨m + d, by omega, q.1, q.2.1, q.2.same q.1⟩)).1 hF
  have hC' : ∀ w ∈ r, ∀ P ∈ w, P.m ≤ C := by
    intro w hw P hP
    obtain ⟨i, hi⟩ := List.mem_iff_getElem?.1 hw
    obtain ⟨v, hv, d, q⟩ := forall₂_get' r2 hi
    have st : SameType v w := q.2.same q.1
    have hmem : (P.irrep.lambda, P.m) ∈ v.map fun P => (P.irrep.lambda, P.m) := by
      rw [show v.map (fun P => (P.irrep.lambda, P.m)) = w.map (fun P => (P.irrep.lambda, P.m)) from st]
      exact List.mem_map.2 ⟨P, hP, rfl⟩
    obtain ⟨Q, hQ, e⟩ := List.mem_map.1 hmem
    rw [← (Prod.mk.inj e).2]
    exact hC v (List.mem_of_getElem? hv) Q hQ
  have ok1 : ∀ x ∈ xs, ∃ n, m ≤ n ∧ Ok n x := by
    intro x hx'
    obtain ⟨i, hi⟩ := List.mem_iff_getElem?.1 hx'
    obtain ⟨y, -, d, q⟩ := forall₂_get hmv hi
    exact ⟨m + d, by omega, q.1⟩
  have ok2 : ∀ x ∈ xs', ∃ n, m ≤ n ∧ Ok n x := by
    intro x hx'
    obtain ⟨i, hi⟩ := List.mem_iff_getElem?.1 hx'
    obtain ⟨y, -, d, q⟩ := forall₂_get' hmv hi
    exact ⟨m + d, by omega, q.2.1⟩
  obtain ⟨t, a1, a2, a3, a4⟩ := error_runs F u hs hu ord hord eig hm p hp xs ok1 hF s h C hC
  obtain ⟨t', b1, b2, b3, b4⟩ := error_runs F u hs hu ord hord eig hm p hp xs' ok2 hF' r r1 C hC'
  have hl := r2.length_eq
  subst a1 b1
  refine ⟨_, _, _, _, a2, b2, a3, b3, by simp, by simpa using hl.symm, fun i w1 hw => ?_⟩
  rw [List.getElem?_map, Option.map_eq_some_iff] at hw
  obtain ⟨q, hq, rfl⟩ := hw
  obtain ⟨v', hv', hmoved⟩ := forall₂_get r2 (i := i) (show (t.map fun q => q.1)[i]? = some q.1 by simp [hq])
  rw [List.getElem?_map, Option.map_eq_some_iff] at hv'
  obtain ⟨q', hq', rfl⟩ := hv'
  obtain ⟨d, g⟩ := a4 q (List.mem_of_getElem? hq)
  obtain ⟨d', g'⟩ := b4 q' (List.mem_of_getElem? hq')
  have hmo := MovedTo.at hmoved g.ok1
  have hε : 0 ≤ (1 + u) ^ (p.map (LStmt.cost C)).sum - 1 := sub_nonneg.2 (one_le_pow₀ (by linarith))
  obtain ⟨z, e, z1, z2, z3, z4, z5⟩ := close_acted (by omega) hε g (g'.level hmo.2.1) hmo.2
  refine ⟨q'.2.1, q.2.2, q'.2.2, z, e, by simp [hq'], by simp [hq], by simp [hq'], ⟨d, g.ok2, ?_⟩, z4, z5⟩
  rw [← enc_lifted]
  exact z1

/-- **C142.** In `float`, for programs with at most `2^23` roundings one after the other, the factor is at most `D/2^23`. -/
theorem C142_ieee (ord : Nat → SumTree) (hord : ∀ c, 1 ≤ c → (ord c).Covers c)
    (eig : Eig) (hm : 1 ≤ m) (p : List LStmt) (hp : ∀ c ∈ p, c.Linear) (xs xs' : List SnVec) {a : Arr} (ha : IsPerm m a)
    (hx : List.Forall₂ (ActedBy m a) xs xs') (hF : LStmt.AllFit eig m p xs) (s : List SnVec) (h : LStmt.run eig p xs = some s) (C : Nat)
    (hC : ∀ w ∈ s, ∀ P ∈ w, P.m ≤ C) (hD : (p.map (LStmt.cost C)).sum ≤ 2 ^ 23) :
    ∃ s1 s2 b1 b2, Rounding.ieee.lrun ord p xs = some s1 ∧ Rounding.ieee.lrun ord p xs' = some s2 ∧
      LStmt.run eig (p.map LStmt.abs) (xs.map absVec) = some b1 ∧ LStmt.run eig (p.map LStmt.abs) (xs'.map absVec) = some b2 ∧
      s1.length = s.length ∧ s2.length = s.length ∧
      ∀ (i : Nat) (w1 : SnVec), s1[i]? = some w1 → ∃ w2 a1 a2 z d, s2[i]? = some w2 ∧ b1[i]? = some a1 ∧ b2[i]? = some a2 ∧
        ActedBy m a w1 z ∧ IsComb (-1) d z w2 ∧ √(dot d d) ≤ (p.map (LStmt.cost C)).sum / 2 ^ 23 * (√(dot a1 a1) + √(dot a2 a2)) := by
  obtain ⟨s1, s2, b1, b2, e1, e2, e3, e4, e5, e6, e7⟩ := C142_equivariant Rounding.ieee us ieee_s (by norm_num [us]) ord hord eig hm p hp xs xs' ha hx
    hF s h C hC
  refine ⟨s1, s2, b1, b2, e1, e2, e3, e4, e5, e6, fun i w1 hw => ?_⟩
  obtain ⟨w2, a1, a2, z, d, f1, f2, f3, f4, f5, f6⟩ := e7 i w1 hw
  refine ⟨w2, a1, a2, z, d, f1, f2, f3, f4, f5, f6.trans (mul_le_mul_of_nonneg_right ?_ (by positivity))⟩
  have hu : us = 2⁻¹ ^ 24 := by norm_num [us]
  have hD' : (((p.map (LStmt.cost C)).sum : Nat) : ℝ) ≤ 2 ^ 23 := by exact_mod_cast hD
  have h4 := pow_le_linear (x := us) (by norm_num [us]) (m := (p.map (LStmt.cost C)).sum) (by rw [hu]; norm_num at hD' ⊢; linarith)
  rw [hu] at h4 ⊢
  norm_num at h4 ⊢
  linarith

/-- **C142.** A program that only restricts, induces and puts vectors together commutes with permutations
without any error. -/
theorem C142_copies (F : Rounding) (ord : Nat → SumTree) (eig : Eig) (hm : 1 ≤ m) (p : List LStmt)
    (hp : ∀ c ∈ p, (∃ i, c = .down i) ∨ (∃ tau i, c = .up tau i) ∨ ∃ i is, c = .net (.lin (.cat i is))) (xs xs' : List SnVec) {a : Arr} (ha : IsPerm m a)
    (hx : List.Forall₂ (ActedBy m a) xs xs') (hF : LStmt.AllFit eig m p xs) (s : List SnVec) (h : LStmt.run eig p xs = some s) :
    ∃ t, F.lrun ord p xs = some s ∧ F.lrun ord p xs' = some t ∧ List.Forall₂ (fun w w' => ∃ w'', ActedBy m a w w'' ∧ obs w' = obs w'') s t := by
  have same : ∀ ys, F.lrun ord p ys = LStmt.run eig p ys := by
    clear hF h
    induction p with
    | nil => intro ys; rfl
    | cons c p ih =>
      intro ys
      have e : F.lexec ord c ys = c.exec eig ys := by
        rcases hp c (by simp) with ⟨i, rfl⟩ | ⟨tau, i, rfl⟩ | ⟨i, is, rfl⟩ <;> rfl
      change (F.lexec ord c ys).bind _ = (c.exec eig ys).bind _
      rw [e]
      exact congrArg _ (funext fun zs => ih (fun c hc => hp c (by simp [hc])) zs)
  have hlin : ∀ c ∈ p, c.Linear := by
    intro c hc
    rcases hp c hc with ⟨i, rfl⟩ | ⟨tau, i, rfl⟩ | ⟨i, is, rfl⟩ <;> trivial
  obtain ⟨t, h1, h2⟩ := C138_equivariant eig hm p hlin xs xs' s hF h ha hx
  exact ⟨t, by rw [same, h], by rw [same, h1], h2⟩

/-! ## Examples -/

/-- `exLetters` restricts, doubles and induces: three letters restricted to two, and the exchange of 1 and 2; one rounding -/
example : ∃ tau v' s1 s2 w1 w2 a1 a2 z d, getType (exVec 1 2) = some tau ∧ SnVec.apply (exVec 1 2) [some 2, some 1, some 3] = some v' ∧
    Rounding.ieee.lrun inOrderOf (exLetters tau) [exVec 1 2] = some s1 ∧ Rounding.ieee.lrun inOrderOf (exLetters tau) [v'] = some s2 ∧
    s1[2]? = some w1 ∧ s2[2]? = some w2 ∧ ActedBy 2 [some 2, some 1] w1 z ∧ IsComb (-1) d z w2 ∧
    √(dot d d) ≤ 1 / 2 ^ 23 * (√(dot a1 a1) + √(dot a2 a2)) := by
  obtain ⟨tau, r, h1, h2, h3, h4⟩ := exLetters_runs eigS (n := 2) (by norm_num) (exVec_ok 1 2)
  have e3 : enc (Equiv.swap (0 : Fin 3) 1) = [some 2, some 1, some 3] := by decide
  obtain ⟨v', x1, -⟩ := apply_data (n := 3) (by norm_num) (Equiv.swap (0 : Fin 3) 1) (exVec_ok 1 2)
  rw [e3] at x1
  obtain ⟨C, hC⟩ : ∃ C, ∀ w ∈ r, ∀ P ∈ w, P.m ≤ C := by
    refine ⟨(r.flatten.map fun P => P.m).sum, fun w hw P hP => ?_⟩
    exact List.single_le_sum (by simp) _ (List.mem_map.2 ⟨P, List.mem_flatten.2 ⟨w, hw, hP⟩, rfl⟩)
  have e : ((exLetters tau).map (LStmt.cost C)).sum = 1 := by simp [exLetters, LStmt.cost, VStmt.cost]
  obtain ⟨s1, s2, b1, b2, f1, f2, f3, f4, f5, f6, f7⟩ := C142_ieee inOrderOf inOrderOf_covers eigS (m := 2) (by norm_num) (exLetters tau)
    (by simp [exLetters, LStmt.Linear]) [exVec 1 2] [v'] (a := [some 2, some 1]) ⟨Equiv.swap 0 1, by decide⟩ (.cons ⟨1, exVec_ok 1 2, x1⟩ .nil) h3 r h2
    C hC (by rw [e]; norm_num)
  obtain ⟨w1, hw⟩ : ∃ w, s1[2]? = some w := ⟨s1[2], List.getElem?_eq_getElem (by omega)⟩
  obtain ⟨w2, a1, a2, z, d, g1, g2, g3, g4, g5, g6⟩ := f7 2 w1 hw
  rw [e, Nat.cast_one] at g6
  exact ⟨tau, v', s1, s2, w1, w2, a1, a2, z, d, h1, x1, f1, f2, hw, g1, g4, g5, g6⟩

end Snob.Props
