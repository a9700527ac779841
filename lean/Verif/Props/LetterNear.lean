import Verif.Proofs.LetterNear
import Verif.Props.LetterClose
import Verif.Props.FloatVec

/-! # Property C143: programs on inputs that are known up to an error -/

namespace Snob.Props

open Snob SnVec Weights Perm

variable {n m : Nat}

section
variable (F : Rounding) (u : ℝ) (hs : RelErr u F.s) (hu : 0 ≤ u) (ord : Nat → SumTree) (hord : ∀ c, 1 ≤ c → (ord c).Covers c)
  (eig : Eig) (hm : 1 ≤ m) (p : List LStmt) (hp : ∀ c ∈ p, c.Linear) (δ : ℝ) (hδ : 0 ≤ δ) (xs ys as : List SnVec) (hx : AllGiven m δ xs ys as)
  (hF : LStmt.AllFit eig m p xs) (s : List SnVec) (h : LStmt.run eig p xs = some s) (C : Nat) (hC : ∀ w ∈ s, ∀ P ∈ w, P.m ≤ C)
include hs hu hord hm hp hδ hx hF h hC

/-- the three runs -/
theorem near_runs : ∃ t : List (SnVec × SnVec × SnVec), s = t.map (fun q => q.1) ∧ F.lrun ord p ys = some (t.map fun q => q.2.1) ∧
    LStmt.run eig (p.map LStmt.abs) as = some (t.map fun q => q.2.2) ∧
    ∀ q ∈ t, ∃ d, Floats3 (fun x y a => |x| ≤ a ∧ |y - x| ≤ ((1 + δ) * (1 + u) ^ (p.map (LStmt.cost C)).sum - 1) * a) (m + d) q := by
  have mono : ∀ e e' : Nat, e ≤ e' → (1 + δ) * (1 + u) ^ e - 1 ≤ (1 + δ) * (1 + u) ^ e' - 1 := fun e e' he =>
    sub_le_sub_right (mul_le_mul_of_nonneg_left (pow_le_pow_right₀ (by linarith) he) (by linarith)) 1
  have mono' : ∀ (e e' : Nat) (x y a : ℝ), e ≤ e' → |x| ≤ a ∧ |y - x| ≤ ((1 + δ) * (1 + u) ^ e - 1) * a →
      |x| ≤ a ∧ |y - x| ≤ ((1 + δ) * (1 + u) ^ e' - 1) * a :=
    fun e e' x y a he h => ⟨h.1, h.2.trans (mul_le_mul_of_nonneg_right (mono e e' he) ((abs_nonneg _).trans h.1))⟩
  obtain ⟨e1, e2, e3⟩ := zip3 hx.1 hx.2.1
  obtain ⟨t, a1, a2, a3, a4⟩ := floats3_run (F := F) (ord := ord) (G := fun _ => True) (C := C) (eig := eig) hm
    (R := fun e x y a => |x| ≤ a ∧ |y - x| ≤ ((1 + δ) * (1 + u) ^ e - 1) * a) mono'
    (fun e c hc x y a f h _ => mono' _ _ _ _ _ (Nat.add_le_add_left hc e) (dot_err_from hs hu hord (1 + δ) e c x y a f h))
    (fun e x y a x' y' a' h h' => by
      have h1 : |x + x'| ≤ a + a' := (abs_add_le _ _).trans (add_le_add h.1 h'.1)
      refine ⟨h1, ?_⟩
      have h2 : |y + y' - (x + x')| ≤ ((1 + δ) * (1 + u) ^ e - 1) * (a + a') := by
        rw [show y + y' - (x + x') = (y - x) + (y' - x') by ring, mul_add]
        exact (abs_add_le _ _).trans (add_le_add h.2 h'.2)
      refine (hs.le hu h2 h1).trans (le_of_eq ?_)
      rw [pow_succ]; ring)
    (p := p) (e := 0) (t := xs.zip (ys.zip as))
    (by
      intro q hq
      obtain ⟨d, g⟩ := floats3_given_all hx q hq
      exact ⟨d, g.mono fun x y a g => by simpa using g⟩)
    (fun c hc => ⟨hp c hc, by rcases c with (c | _) | _ | _ <;> [cases c <;> simp [LStmt.AllW, VStmt.AllW]; trivial; trivial; trivial]⟩)
    (by rw [e1]; exact hF) (by rw [e1]; exact h) hC
  rw [e2] at a2
  rw [e3] at a3
  refine ⟨t, a1, a2, a3, fun q hq => ?_⟩
  have := a4 q hq
  rwa [zero_add] at this

/-- **C143.** A program without products that restricts and induces, run in floating point on inputs `ys` that are the true inputs `xs` up to `δ`
times bounds `as`. It runs, and the entries of its vectors differ from those the exact program computes from the true inputs by at most
`(1+δ)(1+u)^D-1` times the entries the program computes from the bounds with the absolute values of its weights. -/
theorem C143_error : ∃ s' b, F.lrun ord p ys = some s' ∧ LStmt.run eig (p.map LStmt.abs) as = some b ∧
    s'.length = s.length ∧ ∀ (i : Nat) (w : SnVec), s[i]? = some w → ∃ w' a, s'[i]? = some w' ∧ b[i]? = some a ∧
      WithinEntries ((1 + δ) * (1 + u) ^ (p.map (LStmt.cost C)).sum - 1) a w w' := by
  obtain ⟨t, a1, a2, a3, a4⟩ := near_runs F u hs hu ord hord eig hm p hp δ hδ xs ys as hx hF s h C hC
  refine ⟨_, _, a2, a3, by rw [a1]; simp, fun i w hw => ?_⟩
  subst a1
  rw [List.getElem?_map, Option.map_eq_some_iff] at hw
  obtain ⟨⟨w1, w', a⟩, hq, rfl⟩ := hw
  obtain ⟨d, r⟩ := a4 _ (List.mem_of_getElem? hq)
  refine ⟨w', a, by rw [List.getElem?_map, hq]; rfl, by rw [List.getElem?_map, hq]; rfl, ?_⟩
  obtain ⟨b1, b2, b3⟩ := r.rel.at
  refine ⟨b1, b2, fun k P Q A h1 h2 h3 => ?_⟩
  obtain ⟨c1, c2, c3⟩ := b3 k P Q A h1 h2 h3
  exact ⟨c1, c2, fun i hi j hj => (c3 i hi j hj).2⟩

/-- **C143.** Permuting letters: `xs'` are the true inputs with the first `m` letters permuted, and the program runs on `ys` and on `ys'`, which are
`xs` and `xs'` up to errors (those of permuting in floating point, for instance). Permuting the letters of a result of the first run gives that of
the second up to a difference of length at most `(1+δ)(1+u)^D-1` times the lengths of the vectors computed from the bounds. -/
theorem C143_equivariant (xs' ys' as' : List SnVec) {a : Arr} (ha : IsPerm m a) (hxx : List.Forall₂ (ActedBy m a) xs xs')
    (hx' : AllGiven m δ xs' ys' as') :
    ∃ s1 s2 b1 b2, F.lrun ord p ys = some s1 ∧ F.lrun ord p ys' = some s2 ∧ LStmt.run eig (p.map LStmt.abs) as = some b1 ∧
      LStmt.run eig (p.map LStmt.abs) as' = some b2 ∧ s1.length = s.length ∧ s2.length = s.length ∧
      ∀ (i : Nat) (w1 : SnVec), s1[i]? = some w1 → ∃ w2 a1 a2 z d, s2[i]? = some w2 ∧ b1[i]? = some a1 ∧ b2[i]? = some a2 ∧
        ActedBy m a w1 z ∧ IsComb (-1) d z w2 ∧
        √(dot d d) ≤ ((1 + δ) * (1 + u) ^ (p.map (LStmt.cost C)).sum - 1) * (√(dot a1 a1) + √(dot a2 a2)) := by
  obtain ⟨π, rfl⟩ := ha
  have hmv : List.Forall₂ (MovedTo π) xs xs' := hxx.imp fun _ _ q => movedTo_of hm q
  obtain ⟨r, r1, r2⟩ := (letRel_moved eig hm π).run (fun c hc => Or.inl (hp c hc)) hmv hF h
  have hF' : LStmt.AllFit eig m p xs' :=
    (C140_fits_types hm p (fun c hc => Or.inl (hp c hc)) xs xs' (hmv.imp fun _ _ ⟨d, q⟩ => ⟨m + d, by omega, q.1, q.2.1, q.2.same q.1⟩)).1 hF
  have hC' : ∀ w ∈ r, ∀ P ∈ w, P.m ≤ C := by
    intro w hw P hP
    obtain ⟨i, hi⟩ := List.mem_iff_getElem?.1 hw
    obtain ⟨v, hv, d, q⟩ := forall₂_get' r2 hi
    have st : SameType v w := q.2.same q.1
    have hmem : (P.irrep.lambda, P.m) ∈ v.map fun P => (P.irrep.lambda, P.m) := by
      rw [show v.map (fun P => (P.irrep.lambda, P.m)) = w.map (fun P => (P.irrep.lambda, P.m)) from st]
      exact List.mem_map.2 ⟨P, hP, rfl⟩
    obtain ⟨Q, hQ, e⟩ := List.mem_map.1 hmem
    rw [← (Prod.mk.inj e).2]
    exact hC v (List.mem_of_getElem? hv) Q hQ
  obtain ⟨t, a1, a2, a3, a4⟩ := near_runs F u hs hu ord hord eig hm p hp δ hδ xs ys as hx hF s h C hC
  obtain ⟨t', b1, b2, b3, b4⟩ := near_runs F u hs hu ord hord eig hm p hp δ hδ xs' ys' as' hx' hF' r r1 C hC'
  have hl := r2.length_eq
  subst a1 b1
  refine ⟨_, _, _, _, a2, b2, a3, b3, by simp, by simpa using hl.symm, fun i w1 hw => ?_⟩
  rw [List.getElem?_map, Option.map_eq_some_iff] at hw
  obtain ⟨q, hq, rfl⟩ := hw
  obtain ⟨v', hv', hmoved⟩ := forall₂_get r2 (i := i) (show (t.map fun q => q.1)[i]? = some q.1 by simp [hq])
  rw [List.getElem?_map, Option.map_eq_some_iff] at hv'
  obtain ⟨q', hq', rfl⟩ := hv'
  obtain ⟨d, g⟩ := a4 q (List.mem_of_getElem? hq)
  obtain ⟨d', g'⟩ := b4 q' (List.mem_of_getElem? hq')
  have hmo := MovedTo.at hmoved g.ok1
  have hε : 0 ≤ (1 + δ) * (1 + u) ^ (p.map (LStmt.cost C)).sum - 1 := by
    have := one_le_pow₀ (n := (p.map (LStmt.cost C)).sum) (show 1 ≤ 1 + u by linarith)
    nlinarith
  obtain ⟨z, e, z1, z2, z3, z4, z5⟩ := close_acted (by omega) hε g (g'.level hmo.2.1) hmo.2
  refine ⟨q'.2.1, q.2.2, q'.2.2, z, e, by simp [hq'], by simp [hq], by simp [hq'], ⟨d, g.ok2, ?_⟩, z4, z5⟩
  rw [← enc_lifted]
  exact z1

end

/-- entries with a relative error -/
theorem allGiven_rounded (F : Rounding) {u : ℝ} (hs : RelErr u F.s) (hm : 1 ≤ m) {xs : List SnVec} (hx : ∀ x ∈ xs, ∃ n, m ≤ n ∧ Ok n x) :
    AllGiven m u xs (xs.map fun x => x.map fun P => { P with data := fun i j => F.s (P.data i j) }) (xs.map absVec) := by
  refine ⟨by simp, by simp, fun i x y a h1 h2 h3 => ?_⟩
  rw [List.getElem?_map, h1, Option.map_some, Option.some.injEq] at h2 h3
  subst h2 h3
  obtain ⟨n, hn, ho⟩ := hx x (List.mem_of_getElem? h1)
  have hn1 : 1 ≤ n := by omega
  refine ⟨n, hn, ho, (mapData_ok hn1 ho F.s).1, (mapData_ok hn1 ho fun y => |y|).1, fun k P A e1 e2 i _ j _ => ?_, by simp, by simp [absVec],
    fun k P Q A e1 e2 e3 => ?_⟩
  · unfold absVec at e2
    rw [List.getElem?_map, e1, Option.map_some, Option.some.injEq] at e2
    subst e2
    exact le_refl _
  · unfold absVec at e3
    rw [List.getElem?_map, e1, Option.map_some, Option.some.injEq] at e2 e3
    subst e2 e3
    exact ⟨⟨rfl, rfl, rfl⟩, ⟨rfl, rfl, rfl⟩, fun i _ j _ => hs _⟩

/-- **C143.** Inputs that are rounded to `float` before the program starts count as one rounding more. -/
theorem C143_rounded (F : Rounding) (u : ℝ) (hs : RelErr u F.s) (hu : 0 ≤ u) (ord : Nat → SumTree) (hord : ∀ c, 1 ≤ c → (ord c).Covers c)
    (eig : Eig) (hm : 1 ≤ m) (p : List LStmt) (hp : ∀ c ∈ p, c.Linear) (xs : List SnVec) (hx : ∀ x ∈ xs, ∃ n, m ≤ n ∧ Ok n x)
    (hF : LStmt.AllFit eig m p xs) (s : List SnVec) (h : LStmt.run eig p xs = some s) (C : Nat) (hC : ∀ w ∈ s, ∀ P ∈ w, P.m ≤ C) :
    ∃ s' b, F.lrun ord p (xs.map fun x => x.map fun P => { P with data := fun i j => F.s (P.data i j) }) = some s' ∧
      LStmt.run eig (p.map LStmt.abs) (xs.map absVec) = some b ∧ s'.length = s.length ∧
      ∀ (i : Nat) (w : SnVec), s[i]? = some w → ∃ w' a, s'[i]? = some w' ∧ b[i]? = some a ∧
        WithinEntries ((1 + u) ^ ((p.map (LStmt.cost C)).sum + 1) - 1) a w w' := by
  have := C143_error F u hs hu ord hord eig hm p hp u hu xs _ _ (allGiven_rounded F hs hm hx) hF s h C hC
  rwa [← pow_succ'] at this

/-- **C143.** Without rounding, errors in the inputs are not magnified more than the bounds: the exact program runs on `ys`, and its vectors differ
from those for `xs` by at most `δ` times those computed from the bounds. -/
theorem C143_stable (eig : Eig) (hm : 1 ≤ m) (p : List LStmt) (hp : ∀ c ∈ p, c.Linear) (δ : ℝ) (hδ : 0 ≤ δ) (xs ys as : List SnVec)
    (hx : AllGiven m δ xs ys as) (hF : LStmt.AllFit eig m p xs) (s : List SnVec) (h : LStmt.run eig p xs = some s) :
    ∃ s' b, LStmt.run eig p ys = some s' ∧ LStmt.run eig (p.map LStmt.abs) as = some b ∧ s'.length = s.length ∧
      ∀ (i : Nat) (w : SnVec), s[i]? = some w → ∃ w' a, s'[i]? = some w' ∧ b[i]? = some a ∧ WithinEntries δ a w w' := by
  obtain ⟨e1, e2, -⟩ := zip3 hx.1 hx.2.1
  have hst : List.Forall₂ (fun v w => ∃ n, m ≤ n ∧ Ok n v ∧ Ok n w ∧ SameType v w) xs ys := by
    have key : List.Forall₂ (fun v w => ∃ n, m ≤ n ∧ Ok n v ∧ Ok n w ∧ SameType v w) ((xs.zip (ys.zip as)).map fun q => q.1)
        ((xs.zip (ys.zip as)).map fun q => q.2.1) := by
      rw [List.forall₂_map_left_iff, List.forall₂_map_right_iff, List.forall₂_same]
      intro q hq
      obtain ⟨d, g⟩ := floats3_given_all hx q hq
      exact ⟨m + d, by omega, g.ok1, g.ok2, g.st2⟩
    rwa [e1, e2] at key
  obtain ⟨s', k1, k2⟩ := C138_types hm p (fun c hc => Or.inl (hp c hc)) xs ys s hF h hst
  have hF' : LStmt.AllFit eig m p ys := (C140_fits_types hm p (fun c hc => Or.inl (hp c hc)) xs ys hst).1 hF
  obtain ⟨C, hC⟩ : ∃ C, ∀ w ∈ s ++ s', ∀ P ∈ w, P.m ≤ C := by
    refine ⟨((s ++ s').flatten.map fun P => P.m).sum, fun w hw P hP => ?_⟩
    exact List.single_le_sum (by simp) _ (List.mem_map.2 ⟨P, List.mem_flatten.2 ⟨w, hw, hP⟩, rfl⟩)
  have hs : RelErr 0 (Rounding.mk id id).s := fun x => by simp
  have hys : ∀ y ∈ ys, ∃ n, m ≤ n ∧ Ok n y := by
    intro y hy
    obtain ⟨i, hi⟩ := List.mem_iff_getElem?.1 hy
    obtain ⟨x, -, n, hn, -, ho, -⟩ := forall₂_get' hst hi
    exact ⟨n, hn, ho⟩
  obtain ⟨t1, b, f1, f2, f3, f4⟩ := C143_error ⟨id, id⟩ 0 hs le_rfl inOrderOf inOrderOf_covers eig hm p hp δ hδ xs ys as hx hF s h C
    fun w hw => hC w (by simp [hw])
  obtain ⟨t2, b', g1, g2, g3, g4⟩ := C141_error ⟨id, id⟩ 0 hs le_rfl inOrderOf inOrderOf_covers eig hm p hp ys hys hF' s' k1 C
    fun w hw => hC w (by simp [hw])
  obtain rfl := Option.some.inj (f1.symm.trans g1)
  refine ⟨s', b, k1, f2, k2.length_eq.symm, fun i w hw => ?_⟩
  obtain ⟨w1, a, h1, h2, h3⟩ := f4 i w hw
  obtain ⟨w', hw', -⟩ := forall₂_get k2 hw
  obtain ⟨w2, a', m1, m2, m3⟩ := g4 i w' hw'
  obtain rfl := Option.some.inj (h1.symm.trans m1)
  refine ⟨w', a, hw', h2, h3.1.symm.trans m3.1 |>.symm, h3.2.1, fun k P Q A p1 p2 p3 => ?_⟩
  have hk := (List.getElem?_eq_some_iff.1 p2).1
  have q1 : w1[k]? = some (w1[k]'(by rw [m3.1]; exact hk)) := List.getElem?_eq_getElem _
  have q2 : a'[k]? = some (a'[k]'(by rw [m3.2.1]; exact hk)) := List.getElem?_eq_getElem _
  obtain ⟨u1, u2, u3⟩ := h3.2.2 k P _ A p1 q1 p3
  obtain ⟨v1, v2, v3⟩ := m3.2.2 k Q _ _ p2 q1 q2
  refine ⟨⟨v1.1.symm.trans u1.1, v1.2.1.symm.trans u1.2.1, v1.2.2.symm.trans u1.2.2⟩, u2, fun i hi j hj => ?_⟩
  have n1 := u3 i hi j hj
  have n2 := v3 i (by rw [← v1.2.1, u1.2.1]; exact hi) j (by rw [← v1.2.2, u1.2.2]; exact hj)
  simp only [add_zero, one_pow, mul_one, sub_self, zero_mul, abs_nonpos_iff] at n2
  rw [sub_eq_zero.1 n2] at n1
  simpa using n1

/-- other entries in a vector -/
theorem ok_data {x : SnVec} (hx : Ok n x) (g : VPart → Nat → Nat → ℝ) : Ok n (x.map fun P => { P with data := g P }) := by
  refine ⟨fun P hP => ?_, ?_⟩
  · obtain ⟨Q, hQ, rfl⟩ := List.mem_map.1 hP
    exact hx.part Q hQ
  · rw [List.map_map]
    exact hx.sorted

/-- **C143.** Permuting in floating point gives such inputs: after any calls that act on a vector `x` over `n` letters (as in C113), the vector `z` has
the entries of a vector that is the exactly permuted one up to `(1+(3/2)(u+12v+12uv))^N-1` times the lengths of the columns of `x`, where `N` is
the number of adjacent transpositions the calls go through. -/
theorem C143_calls (F : Rounding) (u v : ℝ) (hs : RelErr u F.s) (hd : RelErr v F.d) (hodd : Odd' F.d) (hu : 0 ≤ u) (h0 : 0 ≤ v)
    (hv : v ≤ 1 / 2) (hm : 1 ≤ m) (hmn : m ≤ n) (x x' : SnVec) (hx : Ok n x) (hx' : SameEntries F x x') (cs : List ActCall)
    (σs : List (Equiv.Perm (Fin n))) (hc : List.Forall₂ (ActCall.Means n) cs σs) :
    ∃ y z y', x.apply (enc σs.reverse.prod) = some y ∧ ActCall.run F cs x' = some z ∧ SameEntries F y' z ∧
      GivenFor m ((1 + 3 / 2 * (u + 12 * v + 12 * u * v)) ^ (cs.map (ActCall.cost n)).sum - 1) y y' x.lengths := by
  have hn : 1 ≤ n := by omega
  obtain rfl := sameEntries_eq hn hx hx'
  obtain ⟨w, h1, h2, h3⟩ := run_vec (F := F) hn hodd hx hc
  obtain ⟨y, h4, l1, l2, h5⟩ := fvec_near hn F hs hd hu h0 hv hx h1
  rw [h2] at h4
  obtain ⟨y2, c1, c2, -⟩ := vecApply_ok hn σs.reverse.prod x hx
  obtain rfl := Option.some.inj (h4.symm.trans c1)
  refine ⟨y, _, x.map fun P => { P with data := wact (fst' F P.irrep (List.range P.m)) w P.data }, h4, by rw [h3, mul_one], ?_, n, hmn, c2,
    ok_data hx _, ok_data hx _, fun k Q A e1 e2 i hi j hj => ?_, by simp [l1], by simp [lengths, l1], fun k Q Q' A e1 e2 e3 => ?_⟩
  · unfold SameEntries fvec
    rw [List.forall₂_map_left_iff, List.forall₂_map_right_iff, List.forall₂_same]
    intro P hP
    refine ⟨?_, rfl, rfl, rfl⟩
    rw [Rounding.mkIrrep_map, (hx.part P hP).2.1]
    rfl
  all_goals
    obtain ⟨P, hP⟩ : ∃ P, x[k]? = some P :=
      ⟨x[k]'(by rw [← l1]; exact (List.getElem?_eq_some_iff.1 e1).1), List.getElem?_eq_getElem _⟩
    have e4 : (fvec F x w)[k]? = some ⟨P.d, P.m, F.round P.irrep, wact (fst' F P.irrep (List.range P.m)) w P.data⟩ := by
      unfold fvec
      rw [List.getElem?_map, hP]; rfl
    obtain ⟨r1, r2, r3, r4⟩ := h5 k P Q _ hP e1 e4
  · unfold lengths at e2
    rw [List.getElem?_map, hP, Option.map_some, Option.some.injEq] at e2
    subst e2
    rw [r2.2] at hi
    rw [r3.2] at hj
    refine Real.abs_le_sqrt ?_
    have := apply_inner hn hx _ h4 hP e1 hj hj
    simp only [← pow_two] at this
    rw [← this]
    exact Finset.single_le_sum (f := fun i => Q.data i j ^ 2) (fun _ _ => sq_nonneg _) (Finset.mem_range.2 hi)
  · unfold lengths at e3
    rw [List.getElem?_map, hP, Option.map_some, Option.some.injEq] at e2 e3
    subst e2 e3
    refine ⟨⟨r1, r2.1, r3.1⟩, ⟨r1, r2.1, r3.1⟩, fun i hi j hj => ?_⟩
    rw [r2.2] at hi
    rw [r3.2] at hj
    refine le_trans (Real.abs_le_sqrt ?_) (r4 j hj)
    exact Finset.single_le_sum (f := fun i => (wact (fst' F P.irrep (List.range P.m)) w P.data i j - Q.data i j) ^ 2) (fun _ _ => sq_nonneg _)
      (Finset.mem_range.2 hi)

/-- **C143.** All in floating point: a program is run on a vector `x` over `m+d` letters, and on `x` after calls that permute its first `m` letters.
Both runs succeed, and a result of the second is the exactly permuted result of the first up to a difference of length at most
`2((1+(3/2)(u+12v+12uv))^N (1+u)^D-1)` times the length of what the program computes, with the absolute values of its weights, from the lengths of
the columns of `x`. -/
theorem C143_network (F : Rounding) (u v : ℝ) (hs : RelErr u F.s) (hd : RelErr v F.d) (hodd : Odd' F.d) (hu : 0 ≤ u) (h0 : 0 ≤ v)
    (hv : v ≤ 1 / 2) (ord : Nat → SumTree) (hord : ∀ c, 1 ≤ c → (ord c).Covers c) (eig : Eig) (hm : 1 ≤ m) (p : List LStmt)
    (hp : ∀ c ∈ p, c.Linear) {d : Nat} (x x' : SnVec) (hx : Ok (m + d) x) (hx' : SameEntries F x x') (hF : LStmt.AllFit eig m p [x])
    (s : List SnVec) (h : LStmt.run eig p [x] = some s) (C : Nat) (hC : ∀ w ∈ s, ∀ P ∈ w, P.m ≤ C) (cs : List ActCall)
    (σs : List (Equiv.Perm (Fin (m + d)))) (hc : List.Forall₂ (ActCall.Means (m + d)) cs σs) {a : Arr} (ha : IsPerm m a)
    (hσ : enc σs.reverse.prod = a ++ (List.range d).map fun (i : Nat) => some (((m + i : Nat) : Int) + 1)) :
    ∃ z y s1 s2 b, ActCall.run F cs x' = some z ∧ SameEntries F y z ∧ F.lrun ord p [x] = some s1 ∧ F.lrun ord p [y] = some s2 ∧
      LStmt.run eig (p.map LStmt.abs) [x.lengths] = some b ∧ s1.length = s.length ∧ s2.length = s.length ∧
      ∀ (i : Nat) (w1 : SnVec), s1[i]? = some w1 → ∃ w2 l w1' e, s2[i]? = some w2 ∧ b[i]? = some l ∧ ActedBy m a w1 w1' ∧ IsComb (-1) e w1' w2 ∧
        √(dot e e) ≤ 2 * ((1 + 3 / 2 * (u + 12 * v + 12 * u * v)) ^ (cs.map (ActCall.cost (m + d))).sum *
          (1 + u) ^ (p.map (LStmt.cost C)).sum - 1) * √(dot l l) := by
  obtain ⟨y, z, y', h1, h2, h3, h4⟩ := C143_calls F u v hs hd hodd hu h0 hv hm (Nat.le_add_right m d) x x' hx hx' cs σs hc
  have hγ : 0 ≤ (1 + 3 / 2 * (u + 12 * v + 12 * u * v)) ^ (cs.map (ActCall.cost (m + d))).sum - 1 :=
    sub_nonneg.2 (one_le_pow₀ (by nlinarith [mul_nonneg hu h0]))
  generalize (1 + 3 / 2 * (u + 12 * v + 12 * u * v)) ^ (cs.map (ActCall.cost (m + d))).sum = E at h4 hγ ⊢
  have hg : GivenFor m (E - 1) x x x.lengths := by
    refine ⟨m + d, Nat.le_add_right m d, hx, hx, ok_data hx _, fun k P A e1 e2 i hi j _ => ?_, rfl, by simp [lengths], fun k P Q A e1 e2 e3 => ?_⟩
    · unfold lengths at e2
      rw [List.getElem?_map, e1, Option.map_some, Option.some.injEq] at e2
      subst e2
      exact Real.abs_le_sqrt (Finset.single_le_sum (f := fun i => P.data i j ^ 2) (fun _ _ => sq_nonneg _) (Finset.mem_range.2 hi))
    · unfold lengths at e3
      rw [List.getElem?_map, e1, Option.map_some, Option.some.injEq] at e3
      rw [e1, Option.some.injEq] at e2
      subst e2 e3
      refine ⟨⟨rfl, rfl, rfl⟩, ⟨rfl, rfl, rfl⟩, fun i _ j _ => ?_⟩
      rw [sub_self, abs_zero]
      exact mul_nonneg hγ (Real.sqrt_nonneg _)
  have one : ∀ {x y a : SnVec}, GivenFor m (E - 1) x y a → AllGiven m (E - 1) [x] [y] [a] := by
    intro x y a g
    refine ⟨rfl, rfl, fun i x1 y1 a1 e1 e2 e3 => ?_⟩
    rcases i with _ | i
    · cases e1; cases e2; cases e3; exact g
    · simp at e1
  obtain ⟨s1, s2, b1, b2, f1, f2, f3, f4, f5, f6, f7⟩ := C143_equivariant F u hs hu ord hord eig hm p hp (E - 1) hγ [x] [x] [x.lengths] (one hg) hF s h
    C hC [y] [y'] [x.lengths] ha (.cons ⟨d, hx, by rw [← hσ]; exact h1⟩ .nil) (one h4)
  obtain rfl := Option.some.inj (f3.symm.trans f4)
  refine ⟨z, y', s1, s2, b1, h2, h3, f1, f2, f3, f5, f6, fun i w1 hw => ?_⟩
  obtain ⟨w2, a1, a2, w1', e, g1, g2, g3, g4, g5, g6⟩ := f7 i w1 hw
  obtain rfl := Option.some.inj (g2.symm.trans g3)
  refine ⟨w2, a1, w1', e, g1, g2, g4, g5, g6.trans (le_of_eq ?_)⟩
  rw [add_sub_cancel]
  ring

/-! ## Examples -/

/-- a vector over three letters is restricted, doubled and induced, and 1 and 2 are exchanged before or after -/
example (x' : SnVec) (hx' : SameEntries Rounding.ieee (exVec 1 2) x') : ∃ tau z y s1 s2 w1 w2 l w1' e, getType (exVec 1 2) = some tau ∧
    ActCall.run Rounding.ieee [.swap 1 2] x' = some z ∧ SameEntries Rounding.ieee y z ∧
    Rounding.ieee.lrun inOrderOf (exLetters tau) [exVec 1 2] = some s1 ∧ Rounding.ieee.lrun inOrderOf (exLetters tau) [y] = some s2 ∧
    s1[2]? = some w1 ∧ s2[2]? = some w2 ∧ ActedBy 2 [some 2, some 1] w1 w1' ∧ IsComb (-1) e w1' w2 ∧
    √(dot e e) ≤ 2 * ((1 + 3 / 2 * (us + 12 * ud + 12 * us * ud)) ^ 1 * (1 + us) ^ 1 - 1) * √(dot l l) := by
  obtain ⟨tau, r, h1, h2, h3, h4⟩ := exLetters_runs eigS (n := 2) (by norm_num) (exVec_ok 1 2)
  obtain ⟨C, hC⟩ : ∃ C, ∀ w ∈ r, ∀ P ∈ w, P.m ≤ C := by
    refine ⟨(r.flatten.map fun P => P.m).sum, fun w hw P hP => ?_⟩
    exact List.single_le_sum (by simp) _ (List.mem_map.2 ⟨P, List.mem_flatten.2 ⟨w, hw, hP⟩, rfl⟩)
  have e : ((exLetters tau).map (LStmt.cost C)).sum = 1 := by simp [exLetters, LStmt.cost, VStmt.cost]
  obtain ⟨z, y, s1, s2, b, f1, f2, f3, f4, f5, f6, f7, f8⟩ := C143_network Rounding.ieee us ud ieee_s ieee_d (rnd_odd 53) (by norm_num) (by norm_num)
    (by norm_num) inOrderOf inOrderOf_covers eigS (m := 2) (by norm_num) (exLetters tau) (by simp [exLetters, LStmt.Linear]) (d := 1) (exVec 1 2) x'
    (exVec_ok 1 2) hx' h3 r h2 C hC [.swap 1 2] [Equiv.swap 0 1] (.cons ⟨by norm_num, by norm_num, transposition_eq (n := 3) 0 1⟩ .nil)
    (a := [some 2, some 1]) ⟨Equiv.swap 0 1, by decide⟩ (by decide)
  obtain ⟨w1, hw⟩ : ∃ w, s1[2]? = some w := ⟨s1[2], List.getElem?_eq_getElem (by omega)⟩
  obtain ⟨w2, l, w1', e', g1, g2, g3, g4, g5⟩ := f8 2 w1 hw
  rw [e, show (([.swap 1 2] : List ActCall).map (ActCall.cost (2 + 1))).sum = 1 by norm_num [ActCall.cost]] at g5
  exact ⟨tau, z, y, s1, s2, w1, w2, l, w1', e', h1, f1, f2, f3, f4, hw, g1, g3, g4, g5⟩

/-- 1/3 and 2/3 are no numbers of type `float`; restricted, doubled and induced after rounding them: two roundings -/
example : ∃ tau r s' w w' a, LStmt.run eigS (exLetters tau) [exVec (1 / 3) (2 / 3)] = some r ∧
    Rounding.ieee.lrun inOrderOf (exLetters tau)
      [(exVec (1 / 3) (2 / 3)).map fun P => { P with data := fun i j => Rounding.ieee.s (P.data i j) }] = some s' ∧
    r[2]? = some w ∧ s'[2]? = some w' ∧ WithinEntries ((1 + us) ^ 2 - 1) a w w' := by
  obtain ⟨tau, r, h1, h2, h3, h4⟩ := exLetters_runs eigS (n := 2) (by norm_num) (exVec_ok (1 / 3) (2 / 3))
  obtain ⟨C, hC⟩ : ∃ C, ∀ w ∈ r, ∀ P ∈ w, P.m ≤ C := by
    refine ⟨(r.flatten.map fun P => P.m).sum, fun w hw P hP => ?_⟩
    exact List.single_le_sum (by simp) _ (List.mem_map.2 ⟨P, List.mem_flatten.2 ⟨w, hw, hP⟩, rfl⟩)
  have e : ((exLetters tau).map (LStmt.cost C)).sum = 1 := by simp [exLetters, LStmt.cost, VStmt.cost]
  obtain ⟨s', b, f1, f2, f3, f4⟩ := C143_rounded Rounding.ieee us ieee_s (by norm_num [us]) inOrderOf inOrderOf_covers eigS (m := 2) (by norm_num)
    (exLetters tau) (by simp [exLetters, LStmt.Linear]) [exVec (1 / 3) (2 / 3)] (fun x hx => ⟨3, by norm_num, List.mem_singleton.1 hx ▸ exVec_ok _ _⟩)
    h3 r h2 C hC
  obtain ⟨w, hw⟩ : ∃ w, r[2]? = some w := ⟨r[2], List.getElem?_eq_getElem (by omega)⟩
  obtain ⟨w', a, g1, g2, g3⟩ := f4 2 w hw
  rw [e] at g3
  exact ⟨tau, r, s', w, w', a, h2, f1, hw, g1, g3⟩

end Snob.Props
