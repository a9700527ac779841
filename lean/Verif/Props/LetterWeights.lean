import Verif.Proofs.LetterWeights
import Verif.Props.LetterNear

/-! # Property C144: programs with weights that are known up to an error -/

namespace Snob.Props

open Snob SnVec Weights Perm

variable {n m : Nat}

section
variable (F : Rounding) (u : ℝ) (hs : RelErr u F.s) (hu : 0 ≤ u) (ord : Nat → SumTree) (hord : ∀ c, 1 ≤ c → (ord c).Covers c)
  (eig : Eig) (hm : 1 ≤ m) (η : ℝ) (hη : 0 ≤ η) (p p' : List LStmt) (hpp : List.Forall₂ (LStmt.Near η) p p') (hp : ∀ c ∈ p, c.Linear)
  (δ : ℝ) (hδ : 0 ≤ δ) (xs ys as : List SnVec) (hx : AllGiven m δ xs ys as)
  (hF : LStmt.AllFit eig m p xs) (s : List SnVec) (h : LStmt.run eig p xs = some s) (C : Nat) (hC : ∀ w ∈ s, ∀ P ∈ w, P.m ≤ C)
include hs hu hord hm hη hpp hp hδ hx hF h hC

/-- **C144.** A program without products of vectors, `p`, and the same program with weights that have relative errors up to `η`, `p'`. Run in
floating point, on inputs `ys` that are `xs` up to `δ` times bounds `as`, `p'` runs, and the entries of its vectors differ from those that `p`
computes exactly from `xs` by at most `(1+δ)(1+η)^M(1+u)^D-1` times the entries computed from the bounds with the absolute values of the weights
of `p`, where `M` is the number of products with weights and `D` as in C141. -/
theorem C144_error : ∃ s' b, F.lrun ord p' ys = some s' ∧ LStmt.run eig (p.map LStmt.abs) as = some b ∧
    s'.length = s.length ∧ ∀ (i : Nat) (w : SnVec), s[i]? = some w → ∃ w' a, s'[i]? = some w' ∧ b[i]? = some a ∧ a.Bounds w ∧
      WithinEntries ((1 + δ) * (1 + η) ^ (p.map LStmt.muls).sum * (1 + u) ^ (p.map (LStmt.cost C)).sum - 1) a w w' := by
  obtain ⟨e1, e2, e3⟩ := zip3 hx.1 hx.2.1
  obtain ⟨t, a1, a2, a3, a4⟩ := weights_run (F := F) (ord := ord) (C := C) (eig := eig) (k := 0) (e := 0) (t := xs.zip (ys.zip as)) hs hu hη hδ hord
    hm hpp (by
      intro q hq
      obtain ⟨d, g⟩ := floats3_given_all hx q hq
      exact ⟨d, g.mono fun x y a g => by simpa [ErrAt] using g⟩) hp (by rw [e1]; exact hF) (by rw [e1]; exact h) hC
  rw [e2] at a2
  rw [e3] at a3
  refine ⟨_, _, a2, a3, by rw [a1]; simp, fun i w hw => ?_⟩
  subst a1
  rw [List.getElem?_map, Option.map_eq_some_iff] at hw
  obtain ⟨⟨w1, w', a⟩, hq, rfl⟩ := hw
  obtain ⟨d, r⟩ := a4 _ (List.mem_of_getElem? hq)
  refine ⟨w', a, by rw [List.getElem?_map, hq]; rfl, by rw [List.getElem?_map, hq]; rfl, ?_⟩
  obtain ⟨b1, b2, b3⟩ := r.rel.at
  refine ⟨fun k P A h1 h3 i hi j hj => ?_, b1, b2, fun k P Q A h1 h2 h3 => ?_⟩
  · have hk : k < w'.length := by rw [b1]; exact (List.getElem?_eq_some_iff.1 h1).1
    exact ((b3 k P w'[k] A h1 (List.getElem?_eq_getElem hk) h3).2.2 i hi j hj).1
  obtain ⟨c1, c2, c3⟩ := b3 k P Q A h1 h2 h3
  refine ⟨c1, c2, fun i hi j hj => ?_⟩
  have := (c3 i hi j hj).2
  rwa [zero_add, zero_add] at this

end

/-- rounded weights have relative errors -/
theorem near_rounded (F : Rounding) {u : ℝ} (hs : RelErr u F.s) (p : List LStmt) : List.Forall₂ (LStmt.Near u) p (p.map (LStmt.rounded F)) := by
  rw [List.forall₂_map_right_iff, List.forall₂_same]
  intro c _
  rcases c with ((⟨W, i⟩ | ⟨i, is⟩ | ⟨i, j⟩) | ⟨i, j⟩) | i | ⟨tau, i⟩
  · refine ⟨_, rfl, fun z r c f hz => ⟨fun j k => F.s (f j k), ?_, fun j k => hs _⟩⟩
    unfold Weights.rounded
    rw [hz]; rfl
  all_goals rfl

/-- **C144.** Weights and inputs that are rounded to `float` before the program starts: one rounding more for the inputs and one more for each
product with weights. -/
theorem C144_rounded (F : Rounding) (u : ℝ) (hs : RelErr u F.s) (hu : 0 ≤ u) (ord : Nat → SumTree) (hord : ∀ c, 1 ≤ c → (ord c).Covers c)
    (eig : Eig) (hm : 1 ≤ m) (p : List LStmt) (hp : ∀ c ∈ p, c.Linear) (xs : List SnVec) (hx : ∀ x ∈ xs, ∃ n, m ≤ n ∧ Ok n x)
    (hF : LStmt.AllFit eig m p xs) (s : List SnVec) (h : LStmt.run eig p xs = some s) (C : Nat) (hC : ∀ w ∈ s, ∀ P ∈ w, P.m ≤ C) :
    ∃ s' b, F.lrun ord (p.map (LStmt.rounded F)) (xs.map fun x => x.map fun P => { P with data := fun i j => F.s (P.data i j) }) = some s' ∧
      LStmt.run eig (p.map LStmt.abs) (xs.map absVec) = some b ∧ s'.length = s.length ∧
      ∀ (i : Nat) (w : SnVec), s[i]? = some w → ∃ w' a, s'[i]? = some w' ∧ b[i]? = some a ∧ a.Bounds w ∧
        WithinEntries ((1 + u) ^ ((p.map (LStmt.cost C)).sum + (p.map LStmt.muls).sum + 1) - 1) a w w' := by
  have := C144_error F u hs hu ord hord eig hm u hu p _ (near_rounded F hs p) hp u hu xs _ _ (allGiven_rounded F hs hm hx) hF s h C hC
  rwa [← pow_succ', ← pow_add, show (p.map LStmt.muls).sum + 1 + (p.map (LStmt.cost C)).sum =
    (p.map (LStmt.cost C)).sum + (p.map LStmt.muls).sum + 1 by omega] at this

/-- **C144.** In `float`, with at most `2^23` such roundings, the factor is at most their number over `2^23`. -/
theorem C144_ieee (ord : Nat → SumTree) (hord : ∀ c, 1 ≤ c → (ord c).Covers c)
    (eig : Eig) (hm : 1 ≤ m) (p : List LStmt) (hp : ∀ c ∈ p, c.Linear) (xs : List SnVec) (hx : ∀ x ∈ xs, ∃ n, m ≤ n ∧ Ok n x)
    (hF : LStmt.AllFit eig m p xs) (s : List SnVec) (h : LStmt.run eig p xs = some s) (C : Nat) (hC : ∀ w ∈ s, ∀ P ∈ w, P.m ≤ C)
    (hD : (p.map (LStmt.cost C)).sum + (p.map LStmt.muls).sum + 1 ≤ 2 ^ 23) :
    ∃ s' b, Rounding.ieee.lrun ord (p.map (LStmt.rounded Rounding.ieee))
        (xs.map fun x => x.map fun P => { P with data := fun i j => Rounding.ieee.s (P.data i j) }) = some s' ∧
      LStmt.run eig (p.map LStmt.abs) (xs.map absVec) = some b ∧ s'.length = s.length ∧
      ∀ (i : Nat) (w : SnVec), s[i]? = some w → ∃ w' a, s'[i]? = some w' ∧ b[i]? = some a ∧ a.Bounds w ∧
        WithinEntries (((p.map (LStmt.cost C)).sum + (p.map LStmt.muls).sum + 1 : Nat) / 2 ^ 23) a w w' := by
  obtain ⟨s', b, e1, e2, e3, e4⟩ := C144_rounded Rounding.ieee us ieee_s (by norm_num [us]) ord hord eig hm p hp xs hx hF s h C hC
  refine ⟨s', b, e1, e2, e3, fun i w hw => ?_⟩
  obtain ⟨w', a, f1, f2, fb, f3, f4, f5⟩ := e4 i w hw
  refine ⟨w', a, f1, f2, fb, f3, f4, fun k P Q A h1 h2 h3 => ?_⟩
  obtain ⟨g1, g2, g3⟩ := f5 k P Q A h1 h2 h3
  refine ⟨g1, g2, fun i hi j hj => (g3 i hi j hj).trans (mul_le_mul_of_nonneg_right ?_ ((abs_nonneg _).trans (fb k P A h1 h3 i hi j hj)))⟩
  generalize (p.map (LStmt.cost C)).sum + (p.map LStmt.muls).sum + 1 = D at hD ⊢
  have hu : us = 2⁻¹ ^ 24 := by norm_num [us]
  have hD' : (D : ℝ) ≤ 2 ^ 23 := by exact_mod_cast hD
  have h4 := pow_le_linear (x := us) (by norm_num [us]) (m := D) (by rw [hu]; nlinarith)
  rw [hu] at h4 ⊢
  norm_num at h4 ⊢
  linarith

/-- a sum without rounding -/
theorem dot_exact {ord : Nat → SumTree} (hord : ∀ c, 1 ≤ c → (ord c).Covers c) (c : Nat) (x f : Nat → ℝ) :
    Rounding.exact.dot ord c x f = ((List.range c).map fun k => x k * f k).sum := by
  have h := (dot_err (F := Rounding.exact) (u := 0) (fun x => by simp [Rounding.exact]) le_rfl hord 0 c x x (fun k => |x k|) f (by simp)).2
  simp only [add_zero, one_pow, sub_self, zero_mul, abs_nonpos_iff] at h
  rw [sub_eq_zero.1 h]
  clear h
  induction c with
  | zero => rfl
  | succ c ih => rw [Finset.sum_range_succ, ih, List.range_succ, List.map_append, List.sum_append]; simp

/-- **C144.** Without rounding the programs in floating point are the exact ones, whatever the order of the sums. -/
theorem C144_exact {ord : Nat → SumTree} (hord : ∀ c, 1 ≤ c → (ord c).Covers c) (eig : Eig) (p : List LStmt) (hp : ∀ c ∈ p, c.Linear)
    (xs : List SnVec) : Rounding.exact.lrun ord p xs = LStmt.run eig p xs := by
  have hmul : ∀ W v, Rounding.exact.mulVec ord W v = mulVec W v := by
    intro W v
    unfold Rounding.mulVec mulVec
    congr 1
    funext P
    refine congrArg _ (funext fun M => ?_)
    rcases M with ⟨r, c, f⟩ | ⟨k, f⟩
    · simp only [Rounding.mulPart, mulPart, dot_exact hord]
    · rfl
  have hadd : ∀ v w, Rounding.exact.addVec v w = v.add w := by
    intro v w
    unfold Rounding.addVec
    rcases v.add w with _ | u
    · rfl
    · exact congrArg some (List.map_id u)
  induction p generalizing xs with
  | nil => rfl
  | cons c p ih =>
    have e : Rounding.exact.lexec ord c xs = c.exec eig xs := by
      rcases c with ((⟨W, i⟩ | ⟨i, is⟩ | ⟨i, j⟩) | ⟨i, j⟩) | i | ⟨tau, i⟩
      · change (xs[i]?).bind (fun v => (Rounding.exact.mulVec ord W v).bind _) = (xs[i]?).bind fun v => (mulVec W v).bind _
        simp only [hmul]
      · rfl
      · change (xs[i]?).bind (fun v => (xs[j]?).bind fun w => (Rounding.exact.addVec v w).bind _) =
          (xs[i]?).bind fun v => (xs[j]?).bind fun w => (v.add w).bind _
        simp only [hadd]
      · exact (show False from hp (.net (.prod i j)) (by simp)).elim
      · rfl
      · rfl
    change (Rounding.exact.lexec ord c xs).bind _ = (c.exec eig xs).bind _
    rw [e]
    exact congrArg _ (funext fun zs => ih (fun c hc => hp c (by simp [hc])) zs)

/-- **C144.** How much the exact results depend on the weights and the inputs. -/
theorem C144_stable (eig : Eig) (hm : 1 ≤ m) (η : ℝ) (hη : 0 ≤ η) (p p' : List LStmt) (hpp : List.Forall₂ (LStmt.Near η) p p')
    (hp : ∀ c ∈ p, c.Linear) (δ : ℝ) (hδ : 0 ≤ δ) (xs ys as : List SnVec) (hx : AllGiven m δ xs ys as) (hF : LStmt.AllFit eig m p xs)
    (s : List SnVec) (h : LStmt.run eig p xs = some s) :
    ∃ s' b, LStmt.run eig p' ys = some s' ∧ LStmt.run eig (p.map LStmt.abs) as = some b ∧ s'.length = s.length ∧
      ∀ (i : Nat) (w : SnVec), s[i]? = some w → ∃ w' a, s'[i]? = some w' ∧ b[i]? = some a ∧ a.Bounds w ∧
        WithinEntries ((1 + δ) * (1 + η) ^ (p.map LStmt.muls).sum - 1) a w w' := by
  obtain ⟨C, hC⟩ : ∃ C, ∀ w ∈ s, ∀ P ∈ w, P.m ≤ C := by
    refine ⟨(s.flatten.map fun P => P.m).sum, fun w hw P hP => ?_⟩
    exact List.single_le_sum (by simp) _ (List.mem_map.2 ⟨P, List.mem_flatten.2 ⟨w, hw, hP⟩, rfl⟩)
  have hp' : ∀ c ∈ p', c.Linear := by
    intro c' hc'
    obtain ⟨i, hi⟩ := List.mem_iff_getElem?.1 hc'
    obtain ⟨c, hc, hn⟩ := forall₂_get' hpp hi
    have hl := hp c (List.mem_of_getElem? hc)
    rcases c with ((⟨W, i⟩ | ⟨i, is⟩ | ⟨i, j⟩) | ⟨i, j⟩) | i | ⟨tau, i⟩
    · obtain ⟨W', rfl, -⟩ := hn
      trivial
    all_goals
      obtain rfl := (show c' = _ from hn)
      exact hl
  have := C144_error Rounding.exact 0 (fun x => by simp [Rounding.exact]) le_rfl inOrderOf inOrderOf_covers eig hm η hη p p' hpp hp δ hδ xs ys as hx hF s h
    C hC
  simpa only [C144_exact inOrderOf_covers eig p' hp', add_zero, one_pow, mul_one] using this

/-! ## Examples -/

/-- thirds, which are no numbers of type `float` -/
noncomputable def exThirds : Weights := fun _ => some (.mat 1 1 fun _ _ => 1 / 3)

/-- a vector over three letters times thirds: one rounding of the input, one of the weights and one in the product -/
example : ∃ r s' b w w' a, LStmt.run eigS [.net (.lin (.mul exThirds 0))] [exVec 1 2] = some r ∧
    Rounding.ieee.lrun inOrderOf [.net (.lin (.mul (exThirds.rounded Rounding.ieee) 0))]
      [(exVec 1 2).map fun P => { P with data := fun i j => Rounding.ieee.s (P.data i j) }] = some s' ∧
    LStmt.run eigS [.net (.lin (.mul exThirds.absW 0))] [(exVec 1 2).absVec] = some b ∧
    r[1]? = some w ∧ s'[1]? = some w' ∧ b[1]? = some a ∧ WithinEntries (3 / 2 ^ 23) a w w' := by
  have hm1 : ∀ P ∈ exVec 1 2, P.m = 1 := fun P hP => by rw [List.mem_singleton.1 hP]; rfl
  obtain ⟨w, a1, a2, a3, a4⟩ := mulVec_ok (by norm_num) (exVec_ok 1 2) exThirds (fun _ => 1) (fun _ _ _ => 1 / 3) fun z hz => by
    obtain ⟨-, -, -, -, e1, -⟩ := index_partAt (exVec_ok 1 2) hz
    rw [hm1 _ e1]; rfl
  have hr : LStmt.run eigS [.net (.lin (.mul exThirds 0))] [exVec 1 2] = some [exVec 1 2, w] := by
    change ((some (exVec 1 2)).bind fun v => (mulVec exThirds v).bind fun w => some ([exVec 1 2] ++ [w])).bind some = _
    rw [Option.bind_some, a1]; rfl
  obtain ⟨s', b, f1, f2, f3, f4⟩ := C144_ieee inOrderOf inOrderOf_covers eigS (m := 3) (by norm_num) [.net (.lin (.mul exThirds 0))]
    (by simp [LStmt.Linear]) [exVec 1 2] (fun x hx => ⟨3, le_rfl, List.mem_singleton.1 hx ▸ exVec_ok 1 2⟩) ⟨trivial, fun _ _ => trivial⟩ _ hr 1
    (by
      intro v hv P hP
      simp only [List.mem_cons, List.not_mem_nil, or_false] at hv
      rcases hv with rfl | rfl
      · exact (hm1 P hP).le
      · have hz : P.irrep.lambda ∈ vkeys v := List.mem_map.2 ⟨P, hP, rfl⟩
        have := (a4 _ (a3 ▸ hz)).1
        rw [partAt_of_mem a2.nodup hP] at this
        exact this.le)
    (by simp [LStmt.cost, LStmt.muls, VStmt.cost])
  obtain ⟨w', a, g1, g2, -, g3⟩ := f4 1 w rfl
  refine ⟨_, s', b, w, w', a, hr, f1, f2, rfl, g1, g2, ?_⟩
  norm_num [LStmt.cost, LStmt.muls, VStmt.cost] at g3 ⊢
  exact g3

end Snob.Props
