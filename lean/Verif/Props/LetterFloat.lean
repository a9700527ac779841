import Verif.Proofs.LetterFloat
import Verif.Props.FloatProg
import Verif.Props.LetterLin

/-! # Property C141: programs that restrict and induce vectors, in floating point -/

namespace Snob.Props

open Snob SnVec Weights

variable {n m : Nat}

theorem map_in1 (xs : List SnVec) : (xs.map fun x => (x, x, x.absVec)).map (fun q => q.1) = xs := by
  rw [List.map_map]; exact List.map_id _

theorem map_in2 (xs : List SnVec) : (xs.map fun x => (x, x, x.absVec)).map (fun q => q.2.1) = xs := by
  rw [List.map_map]; exact List.map_id _

theorem map_in3 (xs : List SnVec) : (xs.map fun x => (x, x, x.absVec)).map (fun q => q.2.2) = xs.map absVec := by simp

section
variable (F : Rounding) (u : ℝ) (hs : RelErr u F.s) (hu : 0 ≤ u) (ord : Nat → SumTree) (hord : ∀ c, 1 ≤ c → (ord c).Covers c)
  (eig : Eig) (hm : 1 ≤ m) (p : List LStmt) (hp : ∀ c ∈ p, c.Linear) (xs : List SnVec) (hx : ∀ x ∈ xs, ∃ n, m ≤ n ∧ Ok n x)
  (hF : LStmt.AllFit eig m p xs) (s : List SnVec) (h : LStmt.run eig p xs = some s) (C : Nat) (hC : ∀ w ∈ s, ∀ P ∈ w, P.m ≤ C)
include hs hu hord hm hp hx hF h hC

/-- the three runs -/
theorem error_runs : ∃ t : List (SnVec × SnVec × SnVec), s = t.map (fun q => q.1) ∧ F.lrun ord p xs = some (t.map fun q => q.2.1) ∧
    LStmt.run eig (p.map LStmt.abs) (xs.map absVec) = some (t.map fun q => q.2.2) ∧
    ∀ q ∈ t, ∃ d, Floats3 (fun x y a => |x| ≤ a ∧ |y - x| ≤ ((1 + u) ^ (p.map (LStmt.cost C)).sum - 1) * a) (m + d) q := by
  have mono : ∀ e e' : Nat, e ≤ e' → (1 + u) ^ e - 1 ≤ (1 + u) ^ e' - 1 := fun e e' he => sub_le_sub_right (pow_le_pow_right₀ (by linarith) he) 1
  have mono' : ∀ (e e' : Nat) (x y a : ℝ), e ≤ e' → |x| ≤ a ∧ |y - x| ≤ ((1 + u) ^ e - 1) * a → |x| ≤ a ∧ |y - x| ≤ ((1 + u) ^ e' - 1) * a :=
    fun e e' x y a he h => ⟨h.1, h.2.trans (mul_le_mul_of_nonneg_right (mono e e' he) ((abs_nonneg _).trans h.1))⟩
  obtain ⟨t, a1, a2, a3, a4⟩ := floats3_run (F := F) (ord := ord) (G := fun _ => True) (C := C) (eig := eig) hm
    (R := fun e x y a => |x| ≤ a ∧ |y - x| ≤ ((1 + u) ^ e - 1) * a) mono'
    (fun e c hc x y a f h _ => mono' _ _ _ _ _ (Nat.add_le_add_left hc e) (dot_err hs hu hord e c x y a f h))
    (fun e x y a x' y' a' h h' => by
      have h1 : |x + x'| ≤ a + a' := (abs_add_le _ _).trans (add_le_add h.1 h'.1)
      refine ⟨h1, ?_⟩
      have h2 : |y + y' - (x + x')| ≤ ((1 + u) ^ e - 1) * (a + a') := by
        rw [show y + y' - (x + x') = (y - x) + (y' - x') by ring, mul_add]
        exact (abs_add_le _ _).trans (add_le_add h.2 h'.2)
      refine (hs.le hu h2 h1).trans (le_of_eq ?_)
      rw [pow_succ]; ring)
    (p := p) (e := 0) (t := xs.map fun x => (x, x, x.absVec))
    (by
      intro q hq
      obtain ⟨x, hx', rfl⟩ := List.mem_map.1 hq
      obtain ⟨n, hn, ho⟩ := hx x hx'
      exact floats3_input hm hn ho fun P _ i _ j _ => by simp)
    (fun c hc => ⟨hp c hc, by rcases c with (c | _) | _ | _ <;> [cases c <;> simp [LStmt.AllW, VStmt.AllW]; trivial; trivial; trivial]⟩) (by rw [map_in1]; exact hF) (by rw [map_in1]; exact h) hC
  rw [map_in2] at a2
  rw [map_in3] at a3
  refine ⟨t, a1, a2, a3, fun q hq => ?_⟩
  have := a4 q hq
  rwa [zero_add] at this

/-- **C141.** A program without products that restricts and induces, in floating point. If every operation on `float` has relative error at most
`u`, sums are done in any order, and no part has more than `C` columns, then the program runs on the same inputs as the exact one, and the
entries of its vectors differ from the exact ones by at most `(1+u)^D-1` times the entries the program would compute from the absolute values of
its inputs with the absolute values of its weights, where `D` is `C` for each product with weights, one for each sum, and nothing for
restriction, induction and `cat`. -/
theorem C141_error : ∃ s' b, F.lrun ord p xs = some s' ∧ LStmt.run eig (p.map LStmt.abs) (xs.map absVec) = some b ∧
    s'.length = s.length ∧ ∀ (i : Nat) (w : SnVec), s[i]? = some w → ∃ w' a, s'[i]? = some w' ∧ b[i]? = some a ∧
      WithinEntries ((1 + u) ^ (p.map (LStmt.cost C)).sum - 1) a w w' := by
  obtain ⟨t, a1, a2, a3, a4⟩ := error_runs F u hs hu ord hord eig hm p hp xs hx hF s h C hC
  refine ⟨_, _, a2, a3, by rw [a1]; simp, fun i w hw => ?_⟩
  subst a1
  rw [List.getElem?_map, Option.map_eq_some_iff] at hw
  obtain ⟨⟨w1, w', a⟩, hq, rfl⟩ := hw
  obtain ⟨d, r⟩ := a4 _ (List.mem_of_getElem? hq)
  refine ⟨w', a, by rw [List.getElem?_map, hq]; rfl, by rw [List.getElem?_map, hq]; rfl, ?_⟩
  obtain ⟨b1, b2, b3⟩ := r.rel.at
  refine ⟨b1, b2, fun k P Q A h1 h2 h3 => ?_⟩
  obtain ⟨c1, c2, c3⟩ := b3 k P Q A h1 h2 h3
  exact ⟨c1, c2, fun i hi j hj => (c3 i hi j hj).2⟩

/-- **C141.** When the inputs and the weights are not negative, that is an error relative to the entry itself. -/
theorem C141_nonneg (hW : ∀ c ∈ p, ∀ W i, c = .net (.lin (.mul W i)) → ∀ z r c f, W z = some (.mat r c f) → ∀ j k, 0 ≤ f j k)
    (hpos : ∀ x ∈ xs, ∀ P ∈ x, ∀ i < P.d, ∀ j < P.m, 0 ≤ P.data i j) : ∃ s', F.lrun ord p xs = some s' ∧ s'.length = s.length ∧
    ∀ (i : Nat) (w : SnVec), s[i]? = some w → ∃ w', s'[i]? = some w' ∧ WithinEntries ((1 + u) ^ (p.map (LStmt.cost C)).sum - 1) w w w' := by
  have mono : ∀ e e' : Nat, e ≤ e' → (1 + u) ^ e - 1 ≤ (1 + u) ^ e' - 1 := fun e e' he => sub_le_sub_right (pow_le_pow_right₀ (by linarith) he) 1
  obtain ⟨t, a1, a2, a3, a4⟩ := floats3_run (F := F) (ord := ord) (G := fun f => 0 ≤ f) (C := C) (eig := eig) hm
    (R := fun e x y a => a = x ∧ |x| ≤ a ∧ |y - x| ≤ ((1 + u) ^ e - 1) * a)
    (fun e e' x y a he h => ⟨h.1, h.2.1, h.2.2.trans (mul_le_mul_of_nonneg_right (mono e e' he) ((abs_nonneg _).trans h.2.1))⟩)
    (fun e c hc x y a f h hf => by
      obtain ⟨h1, h2⟩ := dot_err hs hu hord e c x y a f fun k hk => (h k hk).2
      refine ⟨Finset.sum_congr rfl fun k hk => ?_, h1, h2.trans (mul_le_mul_of_nonneg_right (mono _ _ (by omega)) ((abs_nonneg _).trans h1))⟩
      have hk := Finset.mem_range.1 hk
      rw [(h k hk).1, abs_of_nonneg (hf k hk)])
    (fun e x y a x' y' a' h h' => by
      have h1 : |x + x'| ≤ a + a' := (abs_add_le _ _).trans (add_le_add h.2.1 h'.2.1)
      refine ⟨by rw [h.1, h'.1], h1, ?_⟩
      have h2 : |y + y' - (x + x')| ≤ ((1 + u) ^ e - 1) * (a + a') := by
        rw [show y + y' - (x + x') = (y - x) + (y' - x') by ring, mul_add]
        exact (abs_add_le _ _).trans (add_le_add h.2.2 h'.2.2)
      refine (hs.le hu h2 h1).trans (le_of_eq ?_)
      rw [pow_succ]; ring)
    (p := p) (e := 0) (t := xs.map fun x => (x, x, x.absVec))
    (by
      intro q hq
      obtain ⟨x, hx', rfl⟩ := List.mem_map.1 hq
      obtain ⟨n, hn, ho⟩ := hx x hx'
      exact floats3_input hm hn ho fun P hP i hi j hj => ⟨abs_of_nonneg (hpos x hx' P hP i hi j hj), le_refl _, by simp⟩)
    (fun c hc => ⟨hp c hc, by
      rcases c with ((⟨W, i⟩ | _ | _) | _) | _ | _
      · exact fun z r k f hz => hW _ hc W i rfl z r k f hz
      all_goals trivial⟩) (by rw [map_in1]; exact hF) (by rw [map_in1]; exact h) hC
  rw [map_in2] at a2
  rw [map_in3] at a3
  refine ⟨_, a2, by rw [a1]; simp, fun i w hw => ?_⟩
  subst a1
  rw [List.getElem?_map, Option.map_eq_some_iff] at hw
  obtain ⟨⟨w1, w', a⟩, hq, rfl⟩ := hw
  obtain ⟨d, r⟩ := a4 _ (List.mem_of_getElem? hq)
  refine ⟨w', by rw [List.getElem?_map, hq]; rfl, ?_⟩
  obtain ⟨b1, b2, b3⟩ := r.rel.at
  refine ⟨b1, rfl, fun k P Q A h1 h2 h3 => ?_⟩
  rw [h1, Option.some.injEq] at h3
  subst h3
  have h4 : k < a.length := by rw [b2]; exact (List.getElem?_eq_some_iff.1 h1).1
  obtain ⟨c1, -, c3⟩ := b3 k P Q a[k] h1 h2 (List.getElem?_eq_getElem h4)
  refine ⟨c1, ⟨rfl, rfl, rfl⟩, fun i hi j hj => ?_⟩
  have := (c3 i hi j hj).2.2
  rw [zero_add, (c3 i hi j hj).1] at this
  exact this

end

/-- **C141.** With integer weights, such a program in `float` computes the entries of its vectors exactly from inputs with integer entries,
whatever the order of the sums, wherever the entry computed from the absolute values is at most `2^24`. -/
theorem C141_exact (ord : Nat → SumTree) (hord : ∀ c, 1 ≤ c → (ord c).Covers c) (eig : Eig) (hm : 1 ≤ m) (p : List LStmt)
    (hp : ∀ c ∈ p, c.Linear ∧ c.Integral) (xs : List SnVec) (hx : ∀ x ∈ xs, ∃ n, m ≤ n ∧ Ok n x)
    (hxi : ∀ x ∈ xs, ∀ P ∈ x, ∀ i < P.d, ∀ j < P.m, ∃ z : ℤ, P.data i j = z) (hF : LStmt.AllFit eig m p xs)
    (s : List SnVec) (h : LStmt.run eig p xs = some s) :
    ∃ s' b, Rounding.ieee.lrun ord p xs = some s' ∧ LStmt.run eig (p.map LStmt.abs) (xs.map absVec) = some b ∧
    ∀ (i : Nat) (w : SnVec), s[i]? = some w → ∃ w' a, s'[i]? = some w' ∧ b[i]? = some a ∧ w'.length = w.length ∧ a.length = w.length ∧
      ∀ (k : Nat) (P Q A : VPart), w[k]? = some P → w'[k]? = some Q → a[k]? = some A →
        (Q.irrep.lambda = P.irrep.lambda ∧ Q.d = P.d ∧ Q.m = P.m) ∧
        ∀ i < P.d, ∀ j < P.m, A.data i j ≤ 2 ^ 24 → Q.data i j = P.data i j := by
  obtain ⟨C, hC⟩ : ∃ C, ∀ w ∈ s, ∀ P ∈ w, P.m ≤ C := by
    refine ⟨(s.flatten.map fun P => P.m).sum, fun w hw P hP => ?_⟩
    exact List.single_le_sum (by simp) _ (List.mem_map.2 ⟨P, List.mem_flatten.2 ⟨w, hw, hP⟩, rfl⟩)
  obtain ⟨t, a1, a2, a3, a4⟩ := floats3_run (F := Rounding.ieee) (ord := ord) (G := fun f => ∃ z : ℤ, f = z) (C := C) (eig := eig) hm
    (R := fun _ x y a => (∃ z : ℤ, x = z) ∧ |x| ≤ a ∧ (a ≤ 2 ^ 24 → y = x)) (fun _ _ _ _ _ _ h => h)
    (fun e c hc x y a f h hf => by
      have hxa : ∀ k ∈ Finset.range c, |x k * f k| ≤ a k * |f k| := fun k hk => by
        rw [abs_mul]
        exact mul_le_mul_of_nonneg_right (h k (Finset.mem_range.1 hk)).2.1 (abs_nonneg _)
      have hint : ∀ k < c, ∃ z : ℤ, x k * f k = z := fun k hk => by
        obtain ⟨z, hz⟩ := (h k hk).1
        obtain ⟨w, hw⟩ := hf k hk
        exact ⟨z * w, by rw [hz, hw]; push_cast; rfl⟩
      refine ⟨?_, (Finset.abs_sum_le_sum_abs _ _).trans (Finset.sum_le_sum hxa), fun hA => ?_⟩
      · have : ∀ k, ∃ z : ℤ, k < c → x k * f k = z := fun k => by
          by_cases hk : k < c
          · obtain ⟨z, hz⟩ := hint k hk; exact ⟨z, fun _ => hz⟩
          · exact ⟨0, fun h => absurd h hk⟩
        choose z hz using this
        refine ⟨∑ k ∈ Finset.range c, z k, ?_⟩
        push_cast
        exact Finset.sum_congr rfl fun k hk => hz k (Finset.mem_range.1 hk)
      · rcases Nat.eq_zero_or_pos c with rfl | hc0
        · simp [Rounding.dot]
        have hnn : ∀ k ∈ Finset.range c, 0 ≤ a k * |f k| := fun k hk => (abs_nonneg _).trans (hxa k hk)
        have hp : ∀ k < c, rnd 24 (y k * f k) = x k * f k := fun k hk => by
          have hle : a k * |f k| ≤ 2 ^ 24 := (Finset.single_le_sum hnn (Finset.mem_range.2 hk)).trans hA
          have hy : y k * f k = x k * f k := by
            obtain ⟨w, hw⟩ := hf k hk
            by_cases h0 : w = 0
            · rw [hw, h0]; simp
            · have h1 : (1 : ℝ) ≤ |f k| := by
                rw [hw, ← Int.cast_abs]; exact_mod_cast Int.one_le_abs h0
              have h2 : 0 ≤ a k := (abs_nonneg _).trans (h k hk).2.1
              rw [(h k hk).2.2 (by nlinarith)]
          rw [hy]
          obtain ⟨z, hz⟩ := hint k hk
          rw [hz]
          exact rnd_int z (by rw [← hz]; exact (hxa k (Finset.mem_range.2 hk)).trans hle)
        unfold Rounding.dot
        rw [if_neg (by omega)]
        have hcov := hord c hc0
        have hl : ∀ k ∈ (ord c).leaves, k < c := fun k hk => List.mem_range.1 (hcov.mem_iff.1 hk)
        have e1 : ∀ g : Nat → ℝ, ((ord c).leaves.map g).sum = ∑ k ∈ Finset.range c, g k := fun g => by
          rw [(hcov.map g).sum_eq, list_range_sum]
        have e2 := sumTree_int (ord c) (fun k => rnd 24 (y k * f k)) (fun k hk => by rw [hp k (hl k hk)]; exact hint k (hl k hk)) (by
          rw [e1]
          refine (Finset.sum_le_sum fun k hk => ?_).trans hA
          rw [hp k (Finset.mem_range.1 hk)]
          exact hxa k hk)
        have e3 : (ord c).sum (rnd 24) (fun k => rnd 24 (y k * f k)) = _ := e2.1
        rw [e1] at e3
        exact e3.trans (Finset.sum_congr rfl fun k hk => hp k (Finset.mem_range.1 hk)))
    (fun e x y a x' y' a' h h' => by
      obtain ⟨⟨z, hz⟩, h1, h2⟩ := h
      obtain ⟨⟨z', hz'⟩, h1', h2'⟩ := h'
      have h3 := (abs_add_le x x').trans (add_le_add h1 h1')
      refine ⟨⟨z + z', by rw [hz, hz']; push_cast; rfl⟩, h3, fun hA => ?_⟩
      have p1 := (abs_nonneg _).trans h1
      have p2 := (abs_nonneg _).trans h1'
      rw [h2 (by linarith), h2' (by linarith)]
      have e : x + x' = ((z + z' : ℤ) : ℝ) := by rw [hz, hz']; push_cast; rfl
      rw [e]
      exact rnd_int _ (by rw [← e]; linarith))
    (p := p) (e := 0) (t := xs.map fun x => (x, x, x.absVec))
    (by
      intro q hq
      obtain ⟨x, hx', rfl⟩ := List.mem_map.1 hq
      obtain ⟨n, hn, ho⟩ := hx x hx'
      exact floats3_input hm hn ho fun P hP i hi j hj => ⟨hxi x hx' P hP i hi j hj, le_refl _, fun _ => rfl⟩)
    (fun c hc => ⟨(hp c hc).1, by
      have := (hp c hc).2
      rcases c with ((⟨W, i⟩ | _ | _) | _) | _ | _
      · exact this
      all_goals trivial⟩) (by rw [map_in1]; exact hF) (by rw [map_in1]; exact h) hC
  rw [map_in2] at a2
  rw [map_in3] at a3
  refine ⟨_, _, a2, a3, fun i w hw => ?_⟩
  subst a1
  rw [List.getElem?_map, Option.map_eq_some_iff] at hw
  obtain ⟨⟨w1, w', a⟩, hq, rfl⟩ := hw
  obtain ⟨d, r⟩ := a4 _ (List.mem_of_getElem? hq)
  refine ⟨w', a, by rw [List.getElem?_map, hq]; rfl, by rw [List.getElem?_map, hq]; rfl, ?_⟩
  obtain ⟨b1, b2, b3⟩ := r.rel.at
  refine ⟨b1, b2, fun k P Q A h1 h2 h3 => ?_⟩
  obtain ⟨c1, -, c3⟩ := b3 k P Q A h1 h2 h3
  exact ⟨c1, fun i hi j hj => (c3 i hi j hj).2.2⟩

/-- **C141.** In `float`, for programs with at most `2^23` roundings one after the other: the error is at most `D/2^23` times the entry from the
absolute values. -/
theorem C141_ieee (ord : Nat → SumTree) (hord : ∀ c, 1 ≤ c → (ord c).Covers c) (eig : Eig) (hm : 1 ≤ m) (p : List LStmt)
    (hp : ∀ c ∈ p, c.Linear) (xs : List SnVec) (hx : ∀ x ∈ xs, ∃ n, m ≤ n ∧ Ok n x) (hF : LStmt.AllFit eig m p xs)
    (s : List SnVec) (h : LStmt.run eig p xs = some s) (C : Nat) (hC : ∀ w ∈ s, ∀ P ∈ w, P.m ≤ C)
    (hD : (p.map (LStmt.cost C)).sum ≤ 2 ^ 23) :
    ∃ s' b, Rounding.ieee.lrun ord p xs = some s' ∧ LStmt.run eig (p.map LStmt.abs) (xs.map absVec) = some b ∧ s'.length = s.length ∧
    ∀ (i : Nat) (w : SnVec), s[i]? = some w → ∃ w' a, s'[i]? = some w' ∧ b[i]? = some a ∧
      WithinEntries ((p.map (LStmt.cost C)).sum / 2 ^ 23) a w w' := by
  have hu : us = 2⁻¹ ^ 24 := by norm_num [us]
  obtain ⟨s', b, a1, a2, a3, a4⟩ := C141_error Rounding.ieee us ieee_s (by norm_num [us]) ord hord eig hm p hp xs hx hF s h C hC
  refine ⟨s', b, a1, a2, a3, fun i w hw => ?_⟩
  obtain ⟨w', a, b1, b2, b3, b4, b5⟩ := a4 i w hw
  refine ⟨w', a, b1, b2, b3, b4, fun k P Q A h1 h2 h3 => ?_⟩
  obtain ⟨c1, c2, c3⟩ := b5 k P Q A h1 h2 h3
  refine ⟨c1, c2, fun i hi j hj => ?_⟩
  have hA : 0 ≤ A.data i j ∨ A.data i j < 0 := le_or_gt _ _
  have hD' : (((p.map (LStmt.cost C)).sum : Nat) : ℝ) ≤ 2 ^ 23 := by exact_mod_cast hD
  have h4 := pow_le_linear (x := us) (by norm_num [us]) (m := (p.map (LStmt.cost C)).sum) (by rw [hu]; norm_num at hD' ⊢; linarith)
  have h5 : (1 + us) ^ (p.map (LStmt.cost C)).sum - 1 ≤ (((p.map (LStmt.cost C)).sum : Nat) : ℝ) / 2 ^ 23 := by
    rw [hu] at h4 ⊢
    norm_num at h4 ⊢
    linarith
  rcases hA with hA | hA
  · exact (c3 i hi j hj).trans (mul_le_mul_of_nonneg_right h5 hA)
  · have h6 : 0 ≤ (1 + us) ^ (p.map (LStmt.cost C)).sum - 1 := sub_nonneg.2 (one_le_pow₀ (by norm_num [us]))
    have h7 := c3 i hi j hj
    have h8 := abs_nonneg (Q.data i j - P.data i j)
    rcases h6.eq_or_lt with h6 | h6
    · have h9 : (p.map (LStmt.cost C)).sum = 0 := by
        by_contra h0
        have : (1 : ℝ) < (1 + us) ^ (p.map (LStmt.cost C)).sum := one_lt_pow₀ (by norm_num [us]) h0
        linarith
      rw [h9] at h7 ⊢
      simpa using h7
    · nlinarith

/-! ## Examples -/

/-- restricting a vector over three letters, doubling and inducing: one rounding, that of the sum -/
example (F : Rounding) (hs : RelErr us F.s) : ∃ tau r s', LStmt.run eigS (exLetters tau) [exVec 1 2] = some r ∧
    F.lrun inOrderOf (exLetters tau) [exVec 1 2] = some s' ∧ ∃ w w', r[2]? = some w ∧ s'[2]? = some w' ∧ WithinEntries us w w w' := by
  obtain ⟨tau, r, h1, h2, h3, h4⟩ := exLetters_runs eigS (n := 2) (by norm_num) (exVec_ok 1 2)
  obtain ⟨C, hC⟩ : ∃ C, ∀ w ∈ r, ∀ P ∈ w, P.m ≤ C := by
    refine ⟨(r.flatten.map fun P => P.m).sum, fun w hw P hP => ?_⟩
    exact List.single_le_sum (by simp) _ (List.mem_map.2 ⟨P, List.mem_flatten.2 ⟨w, hw, hP⟩, rfl⟩)
  obtain ⟨s', a1, a2, a3⟩ := C141_nonneg F us hs (by norm_num [us]) inOrderOf inOrderOf_covers eigS (m := 2) (by norm_num) (exLetters tau)
    (by simp [exLetters, LStmt.Linear]) [exVec 1 2] (by simpa using ⟨3, by norm_num, exVec_ok 1 2⟩) h3 r h2 C hC (by simp [exLetters]) (by
      intro x hx P hP i _ j _
      rw [List.mem_singleton.1 hx] at hP
      simp only [exVec, List.mem_singleton] at hP
      subst hP
      simp only [mkP]
      split_ifs <;> norm_num)
  obtain ⟨w, hw⟩ : ∃ w, r[2]? = some w := ⟨r[2], List.getElem?_eq_getElem (by omega)⟩
  obtain ⟨w', b1, b2⟩ := a3 2 w hw
  refine ⟨tau, r, s', h2, a1, w, w', hw, b1, ?_⟩
  have e : (1 + us) ^ ((exLetters tau).map (LStmt.cost C)).sum - 1 = us := by simp [exLetters, LStmt.cost, VStmt.cost]
  rwa [e] at b2

end Snob.Props
