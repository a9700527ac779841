import Verif.Proofs.FloatProg
import Verif.Proofs.FloatIeee
import Verif.Props.VecProg
import Verif.Props.FloatFFT
import Verif.Proofs.FloatEval

/-! # Property C133: programs that combine vectors, in floating point -/

namespace Snob.Props

open Snob SnVec Weights

variable {n : Nat}

/-- a dot product in floating point, of numbers that have errors already -/
theorem dot_err_from {F : Rounding} {u : ℝ} (hs : RelErr u F.s) (hu : 0 ≤ u) {ord : Nat → SumTree} (hord : ∀ c, 1 ≤ c → (ord c).Covers c)
    (K : ℝ) (e c : Nat) (x y a f : Nat → ℝ) (h : ∀ k < c, |x k| ≤ a k ∧ |y k - x k| ≤ (K * (1 + u) ^ e - 1) * a k) :
    |∑ k ∈ Finset.range c, x k * f k| ≤ ∑ k ∈ Finset.range c, a k * |f k| ∧
    |F.dot ord c y f - ∑ k ∈ Finset.range c, x k * f k| ≤ (K * (1 + u) ^ (e + c) - 1) * ∑ k ∈ Finset.range c, a k * |f k| := by
  have hx : ∀ k ∈ Finset.range c, |x k * f k| ≤ a k * |f k| := fun k hk => by
    rw [abs_mul]
    exact mul_le_mul_of_nonneg_right (h k (Finset.mem_range.1 hk)).1 (abs_nonneg _)
  refine ⟨(Finset.abs_sum_le_sum_abs _ _).trans (Finset.sum_le_sum hx), ?_⟩
  rcases Nat.eq_zero_or_pos c with rfl | hc
  · simp [Rounding.dot]
  unfold Rounding.dot
  rw [if_neg (by omega)]
  set p : Nat → ℝ := fun k => F.s (y k * f k)
  set A := ∑ k ∈ Finset.range c, a k * |f k|
  have hp : ∀ k ∈ Finset.range c, |p k - x k * f k| ≤ (K * (1 + u) ^ (e + 1) - 1) * (a k * |f k|) := fun k hk => by
    have h1 : |y k * f k - x k * f k| ≤ (K * (1 + u) ^ e - 1) * (a k * |f k|) := by
      rw [← sub_mul, abs_mul, ← mul_assoc]
      exact mul_le_mul_of_nonneg_right (h k (Finset.mem_range.1 hk)).2 (abs_nonneg _)
    refine (hs.le hu h1 (hx k hk)).trans (le_of_eq ?_)
    rw [pow_succ]; ring
  have hp2 : ∑ k ∈ Finset.range c, |p k| ≤ K * (1 + u) ^ (e + 1) * A := by
    rw [Finset.mul_sum]
    refine Finset.sum_le_sum fun k hk => ?_
    have h1 := abs_add_le (x k * f k) (p k - x k * f k)
    rw [add_sub_cancel] at h1
    have h2 := hp k hk
    have h3 := hx k hk
    linarith
  have h1 := (hord c hc).err hs hu p
  have h2 : |∑ k ∈ Finset.range c, p k - ∑ k ∈ Finset.range c, x k * f k| ≤ (K * (1 + u) ^ (e + 1) - 1) * A := by
    rw [← Finset.sum_sub_distrib, Finset.mul_sum]
    exact (Finset.abs_sum_le_sum_abs _ _).trans (Finset.sum_le_sum hp)
  have h3 : (0 : ℝ) ≤ (1 + u) ^ (c - 1) - 1 := sub_nonneg.2 (one_le_pow₀ (by linarith))
  have h4 := mul_le_mul_of_nonneg_left hp2 h3
  have h5 := abs_sub_le ((ord c).sum F.s p) (∑ k ∈ Finset.range c, p k) (∑ k ∈ Finset.range c, x k * f k)
  have h6 : (1 + u) ^ (e + c) = (1 + u) ^ (e + 1) * (1 + u) ^ (c - 1) := by
    rw [← pow_add]; congr 1; omega
  rw [h6]
  have : (K * ((1 + u) ^ (e + 1) * (1 + u) ^ (c - 1)) - 1) * A =
      ((1 + u) ^ (c - 1) - 1) * (K * (1 + u) ^ (e + 1) * A) + (K * (1 + u) ^ (e + 1) - 1) * A := by ring
  linarith

theorem dot_err {F : Rounding} {u : ℝ} (hs : RelErr u F.s) (hu : 0 ≤ u) {ord : Nat → SumTree} (hord : ∀ c, 1 ≤ c → (ord c).Covers c)
    (e c : Nat) (x y a f : Nat → ℝ) (h : ∀ k < c, |x k| ≤ a k ∧ |y k - x k| ≤ ((1 + u) ^ e - 1) * a k) :
    |∑ k ∈ Finset.range c, x k * f k| ≤ ∑ k ∈ Finset.range c, a k * |f k| ∧
    |F.dot ord c y f - ∑ k ∈ Finset.range c, x k * f k| ≤ ((1 + u) ^ (e + c) - 1) * ∑ k ∈ Finset.range c, a k * |f k| := by
  have := dot_err_from hs hu hord 1 e c x y a f (by simpa only [one_mul] using h)
  simpa only [one_mul] using this

section
variable (F : Rounding) (u : ℝ) (hs : RelErr u F.s) (hu : 0 ≤ u) (ord : Nat → SumTree) (hord : ∀ c, 1 ≤ c → (ord c).Covers c)
  (n : Nat) (hn : 1 ≤ n) (p : List VStmt) (x : SnVec) (hx : Ok n x) (s : List SnVec) (h : VStmt.run p [x] = some s) (C : Nat)
  (hC : ∀ w ∈ s, ∀ P ∈ w, P.m ≤ C)
include hs hu hord hn hx h hC

/-- **C133.** A program in floating point. If every operation on `float` has relative error at most `u`, sums are done in any order, and
no part has more than `C` columns, then the program runs on the same inputs as the exact one, and the entries of its vectors differ from the
exact ones by at most `(1+u)^D-1` times the entries the program would compute from the absolute values of its input with the absolute values of
its weights, where `D` is `C` for each product and one for each sum of the program. -/
theorem C133_error : ∃ s' b, F.vrun ord p [x] = some s' ∧ VStmt.run (p.map VStmt.abs) [x.absVec] = some b ∧
    s'.length = s.length ∧ ∀ (i : Nat) (w : SnVec), s[i]? = some w → ∃ w' a, s'[i]? = some w' ∧ b[i]? = some a ∧
      WithinEntries ((1 + u) ^ (p.map (VStmt.cost C)).sum - 1) a w w' := by
  have mono : ∀ e e' : Nat, e ≤ e' → (1 + u) ^ e - 1 ≤ (1 + u) ^ e' - 1 := fun e e' he => sub_le_sub_right (pow_le_pow_right₀ (by linarith) he) 1
  have mono' : ∀ (e e' : Nat) (x y a : ℝ), e ≤ e' → |x| ≤ a ∧ |y - x| ≤ ((1 + u) ^ e - 1) * a → |x| ≤ a ∧ |y - x| ≤ ((1 + u) ^ e' - 1) * a :=
    fun e e' x y a he h => ⟨h.1, h.2.trans (mul_le_mul_of_nonneg_right (mono e e' he) ((abs_nonneg _).trans h.1))⟩
  obtain ⟨t, a1, a2, a3, a4⟩ := rel3_run (F := F) (ord := ord) (G := fun _ => True) (C := C) hn
    (R := fun e x y a => |x| ≤ a ∧ |y - x| ≤ ((1 + u) ^ e - 1) * a) mono'
    (fun e c hc x y a f h _ => mono' _ _ _ _ _ (Nat.add_le_add_left hc e) (dot_err hs hu hord e c x y a f h))
    (fun e x y a x' y' a' h h' => by
      have h1 : |x + x'| ≤ a + a' := (abs_add_le _ _).trans (add_le_add h.1 h'.1)
      refine ⟨h1, ?_⟩
      have h2 : |y + y' - (x + x')| ≤ ((1 + u) ^ e - 1) * (a + a') := by
        rw [show y + y' - (x + x') = (y - x) + (y' - x') by ring, mul_add]
        exact (abs_add_le _ _).trans (add_le_add h.2 h'.2)
      refine (hs.le hu h2 h1).trans (le_of_eq ?_)
      rw [pow_succ]; ring)
    hx (p := p) (e := 0) (t := [(x, x, x.absVec)])
    (by
      intro q hq
      rw [List.mem_singleton.1 hq]
      exact rel3_input hn hx fun P _ i _ j _ => by simp)
    (fun c _ => by cases c <;> simp [VStmt.AllW]) h hC
  refine ⟨_, _, a2, a3, by rw [a1]; simp, fun i w hw => ?_⟩
  subst a1
  rw [List.getElem?_map, Option.map_eq_some_iff] at hw
  obtain ⟨⟨w1, w', a⟩, hq, rfl⟩ := hw
  refine ⟨w', a, by rw [List.getElem?_map, hq]; rfl, by rw [List.getElem?_map, hq]; rfl, ?_⟩
  obtain ⟨b1, b2, b3⟩ := (a4 _ (List.mem_of_getElem? hq)).at
  refine ⟨b1, b2, fun k P Q A h1 h2 h3 => ?_⟩
  obtain ⟨c1, c2, c3⟩ := b3 k P Q A h1 h2 h3
  exact ⟨c1, c2, fun i hi j hj => by have := (c3 i hi j hj).2; rwa [zero_add] at this⟩

/-- **C133.** When the input and the weights are not negative, that is an error relative to the entry itself. -/
theorem C133_nonneg (hp : ∀ c ∈ p, ∀ W i, c = .mul W i → ∀ z r c f, W z = some (.mat r c f) → ∀ j k, 0 ≤ f j k)
    (hpos : ∀ P ∈ x, ∀ i < P.d, ∀ j < P.m, 0 ≤ P.data i j) : ∃ s', F.vrun ord p [x] = some s' ∧ s'.length = s.length ∧
    ∀ (i : Nat) (w : SnVec), s[i]? = some w → ∃ w', s'[i]? = some w' ∧ WithinEntries ((1 + u) ^ (p.map (VStmt.cost C)).sum - 1) w w w' := by
  have mono : ∀ e e' : Nat, e ≤ e' → (1 + u) ^ e - 1 ≤ (1 + u) ^ e' - 1 := fun e e' he => sub_le_sub_right (pow_le_pow_right₀ (by linarith) he) 1
  obtain ⟨t, a1, a2, -, a4⟩ := rel3_run (F := F) (ord := ord) (G := fun f => 0 ≤ f) (C := C) hn
    (R := fun e x y a => a = x ∧ |x| ≤ a ∧ |y - x| ≤ ((1 + u) ^ e - 1) * a)
    (fun e e' x y a he h => ⟨h.1, h.2.1, h.2.2.trans (mul_le_mul_of_nonneg_right (mono e e' he) ((abs_nonneg _).trans h.2.1))⟩)
    (fun e c hc x y a f h hf => by
      obtain ⟨h1, h2⟩ := dot_err hs hu hord e c x y a f fun k hk => (h k hk).2
      refine ⟨Finset.sum_congr rfl fun k hk => ?_, h1, h2.trans (mul_le_mul_of_nonneg_right (mono _ _ (by omega)) ((abs_nonneg _).trans h1))⟩
      have hk := Finset.mem_range.1 hk
      rw [(h k hk).1, abs_of_nonneg (hf k hk)])
    (fun e x y a x' y' a' h h' => by
      have h1 : |x + x'| ≤ a + a' := (abs_add_le _ _).trans (add_le_add h.2.1 h'.2.1)
      refine ⟨by rw [h.1, h'.1], h1, ?_⟩
      have h2 : |y + y' - (x + x')| ≤ ((1 + u) ^ e - 1) * (a + a') := by
        rw [show y + y' - (x + x') = (y - x) + (y' - x') by ring, mul_add]
        exact (abs_add_le _ _).trans (add_le_add h.2.2 h'.2.2)
      refine (hs.le hu h2 h1).trans (le_of_eq ?_)
      rw [pow_succ]; ring)
    hx (p := p) (e := 0) (t := [(x, x, x.absVec)])
    (by
      intro q hq
      rw [List.mem_singleton.1 hq]
      exact rel3_input hn hx fun P hP i hi j hj => ⟨abs_of_nonneg (hpos P hP i hi j hj), le_refl _, by simp⟩)
    (fun c hc => by
      cases c with
      | mul W i => exact fun z r k f hz => hp _ hc W i rfl z r k f hz
      | cat _ _ => trivial
      | add _ _ => trivial) h hC
  refine ⟨_, a2, by rw [a1]; simp, fun i w hw => ?_⟩
  subst a1
  rw [List.getElem?_map, Option.map_eq_some_iff] at hw
  obtain ⟨⟨w1, w', a⟩, hq, rfl⟩ := hw
  refine ⟨w', by rw [List.getElem?_map, hq]; rfl, ?_⟩
  obtain ⟨b1, b2, b3⟩ := (a4 _ (List.mem_of_getElem? hq)).at
  refine ⟨b1, rfl, fun k P Q A h1 h2 h3 => ?_⟩
  rw [h1, Option.some.injEq] at h3
  subst h3
  have h4 : k < a.length := by rw [b2]; exact (List.getElem?_eq_some_iff.1 h1).1
  obtain ⟨c1, -, c3⟩ := b3 k P Q a[k] h1 h2 (List.getElem?_eq_getElem h4)
  refine ⟨c1, ⟨rfl, rfl, rfl⟩, fun i hi j hj => ?_⟩
  have := (c3 i hi j hj).2.2
  rw [zero_add, (c3 i hi j hj).1] at this
  exact this

end

/-- integers up to `2^24` are not rounded -/
theorem rnd_int (w : ℤ) (h : |(w : ℝ)| ≤ 2 ^ 24) : rnd 24 (w : ℝ) = w := by
  refine rnd_exact (by omega) (isFloat_int (by omega) ?_)
  have : ((|w| : ℤ) : ℝ) ≤ ((2 ^ 24 : ℤ) : ℝ) := by
    rw [Int.cast_abs, Int.cast_pow]; exact_mod_cast h
  exact_mod_cast this

/-- sums of integers in any order -/
theorem sumTree_int (T : SumTree) (x : Nat → ℝ) (hx : ∀ k ∈ T.leaves, ∃ z : ℤ, x k = z)
    (h : (T.leaves.map fun k => |x k|).sum ≤ 2 ^ 24) : T.sum (rnd 24) x = (T.leaves.map x).sum ∧ (∃ z : ℤ, (T.leaves.map x).sum = z) ∧
      |(T.leaves.map x).sum| ≤ (T.leaves.map fun k => |x k|).sum := by
  induction T with
  | leaf t =>
    obtain ⟨z, hz⟩ := hx t (by simp [SumTree.leaves])
    simp [SumTree.sum, SumTree.leaves, hz]
  | node a b iha ihb =>
    simp only [SumTree.leaves, List.map_append, List.sum_append] at h hx ⊢
    have ha : 0 ≤ (a.leaves.map fun k => |x k|).sum := List.sum_nonneg (by
      intro y hy; obtain ⟨k, -, rfl⟩ := List.mem_map.1 hy; exact abs_nonneg _)
    have hb : 0 ≤ (b.leaves.map fun k => |x k|).sum := List.sum_nonneg (by
      intro y hy; obtain ⟨k, -, rfl⟩ := List.mem_map.1 hy; exact abs_nonneg _)
    obtain ⟨a1, ⟨z, a2⟩, a3⟩ := iha (fun k hk => hx k (by simp [hk])) (by linarith)
    obtain ⟨b1, ⟨w, b2⟩, b3⟩ := ihb (fun k hk => hx k (by simp [hk])) (by linarith)
    have hab := (abs_add_le _ _).trans (add_le_add a3 b3)
    refine ⟨?_, ⟨z + w, by rw [a2, b2]; push_cast; rfl⟩, hab⟩
    rw [SumTree.sum, a1, b1]
    rw [a2, b2] at hab ⊢
    rw [← Int.cast_add] at hab ⊢
    exact rnd_int _ (by linarith)

/-- **C133.** With integer weights, a program in `float` computes the entries of its vectors exactly from an input with integer entries,
whatever the order of the sums, wherever the entry computed from the absolute values is at most `2^24`. -/
theorem C133_exact (ord : Nat → SumTree) (hord : ∀ c, 1 ≤ c → (ord c).Covers c) (n : Nat) (hn : 1 ≤ n) (p : List VStmt)
    (hp : ∀ c ∈ p, c.Integral) (x : SnVec) (hx : Ok n x) (hxi : ∀ P ∈ x, ∀ i < P.d, ∀ j < P.m, ∃ z : ℤ, P.data i j = z)
    (s : List SnVec) (h : VStmt.run p [x] = some s) :
    ∃ s' b, Rounding.ieee.vrun ord p [x] = some s' ∧ VStmt.run (p.map VStmt.abs) [x.absVec] = some b ∧
    ∀ (i : Nat) (w : SnVec), s[i]? = some w → ∃ w' a, s'[i]? = some w' ∧ b[i]? = some a ∧ w'.length = w.length ∧ a.length = w.length ∧
      ∀ (k : Nat) (P Q A : VPart), w[k]? = some P → w'[k]? = some Q → a[k]? = some A →
        (Q.irrep.lambda = P.irrep.lambda ∧ Q.d = P.d ∧ Q.m = P.m) ∧
        ∀ i < P.d, ∀ j < P.m, A.data i j ≤ 2 ^ 24 → Q.data i j = P.data i j := by
  obtain ⟨C, hC⟩ : ∃ C, ∀ w ∈ s, ∀ P ∈ w, P.m ≤ C := by
    refine ⟨(s.flatten.map fun P => P.m).sum, fun w hw P hP => ?_⟩
    exact List.single_le_sum (by simp) _ (List.mem_map.2 ⟨P, List.mem_flatten.2 ⟨w, hw, hP⟩, rfl⟩)
  obtain ⟨t, a1, a2, a3, a4⟩ := rel3_run (F := Rounding.ieee) (ord := ord) (G := fun f => ∃ z : ℤ, f = z) (C := C) hn
    (R := fun _ x y a => (∃ z : ℤ, x = z) ∧ |x| ≤ a ∧ (a ≤ 2 ^ 24 → y = x)) (fun _ _ _ _ _ _ h => h)
    (fun e c hc x y a f h hf => by
      have hxa : ∀ k ∈ Finset.range c, |x k * f k| ≤ a k * |f k| := fun k hk => by
        rw [abs_mul]
        exact mul_le_mul_of_nonneg_right (h k (Finset.mem_range.1 hk)).2.1 (abs_nonneg _)
      have hint : ∀ k < c, ∃ z : ℤ, x k * f k = z := fun k hk => by
        obtain ⟨z, hz⟩ := (h k hk).1
        obtain ⟨w, hw⟩ := hf k hk
        exact ⟨z * w, by rw [hz, hw]; push_cast; rfl⟩
      refine ⟨?_, (Finset.abs_sum_le_sum_abs _ _).trans (Finset.sum_le_sum hxa), fun hA => ?_⟩
      · have : ∀ k, ∃ z : ℤ, k < c → x k * f k = z := fun k => by
          by_cases hk : k < c
          · obtain ⟨z, hz⟩ := hint k hk; exact ⟨z, fun _ => hz⟩
          · exact ⟨0, fun h => absurd h hk⟩
        choose z hz using this
        refine ⟨∑ k ∈ Finset.range c, z k, ?_⟩
        push_cast
        exact Finset.sum_congr rfl fun k hk => hz k (Finset.mem_range.1 hk)
      · rcases Nat.eq_zero_or_pos c with rfl | hc0
        · simp [Rounding.dot]
        have hnn : ∀ k ∈ Finset.range c, 0 ≤ a k * |f k| := fun k hk => (abs_nonneg _).trans (hxa k hk)
        have hp : ∀ k < c, rnd 24 (y k * f k) = x k * f k := fun k hk => by
          have hle : a k * |f k| ≤ 2 ^ 24 := (Finset.single_le_sum hnn (Finset.mem_range.2 hk)).trans hA
          have hy : y k * f k = x k * f k := by
            obtain ⟨w, hw⟩ := hf k hk
            by_cases h0 : w = 0
            · rw [hw, h0]; simp
            · have h1 : (1 : ℝ) ≤ |f k| := by
                rw [hw, ← Int.cast_abs]; exact_mod_cast Int.one_le_abs h0
              have h2 : 0 ≤ a k := (abs_nonneg _).trans (h k hk).2.1
              rw [(h k hk).2.2 (by nlinarith)]
          rw [hy]
          obtain ⟨z, hz⟩ := hint k hk
          rw [hz]
          exact rnd_int z (by rw [← hz]; exact (hxa k (Finset.mem_range.2 hk)).trans hle)
        unfold Rounding.dot
        rw [if_neg (by omega)]
        have hcov := hord c hc0
        have hl : ∀ k ∈ (ord c).leaves, k < c := fun k hk => List.mem_range.1 (hcov.mem_iff.1 hk)
        have e1 : ∀ g : Nat → ℝ, ((ord c).leaves.map g).sum = ∑ k ∈ Finset.range c, g k := fun g => by
          rw [(hcov.map g).sum_eq, list_range_sum]
        have e2 := sumTree_int (ord c) (fun k => rnd 24 (y k * f k)) (fun k hk => by rw [hp k (hl k hk)]; exact hint k (hl k hk)) (by
          rw [e1]
          refine (Finset.sum_le_sum fun k hk => ?_).trans hA
          rw [hp k (Finset.mem_range.1 hk)]
          exact hxa k hk)
        have e3 : (ord c).sum (rnd 24) (fun k => rnd 24 (y k * f k)) = _ := e2.1
        rw [e1] at e3
        exact e3.trans (Finset.sum_congr rfl fun k hk => hp k (Finset.mem_range.1 hk)))
    (fun e x y a x' y' a' h h' => by
      obtain ⟨⟨z, hz⟩, h1, h2⟩ := h
      obtain ⟨⟨z', hz'⟩, h1', h2'⟩ := h'
      have h3 := (abs_add_le x x').trans (add_le_add h1 h1')
      refine ⟨⟨z + z', by rw [hz, hz']; push_cast; rfl⟩, h3, fun hA => ?_⟩
      have p1 := (abs_nonneg _).trans h1
      have p2 := (abs_nonneg _).trans h1'
      rw [h2 (by linarith), h2' (by linarith)]
      have e : x + x' = ((z + z' : ℤ) : ℝ) := by rw [hz, hz']; push_cast; rfl
      rw [e]
      exact rnd_int _ (by rw [← e]; linarith))
    hx (p := p) (e := 0) (t := [(x, x, x.absVec)])
    (by
      intro q hq
      rw [List.mem_singleton.1 hq]
      exact rel3_input hn hx fun P hP i hi j hj => ⟨hxi P hP i hi j hj, le_refl _, fun _ => rfl⟩)
    (fun c hc => by
      have := hp c hc
      cases c with
      | mul W i => exact this
      | cat _ _ => trivial
      | add _ _ => trivial) h hC
  refine ⟨_, _, a2, a3, fun i w hw => ?_⟩
  subst a1
  rw [List.getElem?_map, Option.map_eq_some_iff] at hw
  obtain ⟨⟨w1, w', a⟩, hq, rfl⟩ := hw
  refine ⟨w', a, by rw [List.getElem?_map, hq]; rfl, by rw [List.getElem?_map, hq]; rfl, ?_⟩
  obtain ⟨b1, b2, b3⟩ := (a4 _ (List.mem_of_getElem? hq)).at
  refine ⟨b1, b2, fun k P Q A h1 h2 h3 => ?_⟩
  obtain ⟨c1, -, c3⟩ := b3 k P Q A h1 h2 h3
  exact ⟨c1, fun i hi j hj => (c3 i hi j hj).2.2⟩

/-- **C133.** In `float`, for programs with at most `2^23` roundings one after the other: the error is at most `D/2^23` times the entry from the
absolute values. -/
theorem C133_ieee (ord : Nat → SumTree) (hord : ∀ c, 1 ≤ c → (ord c).Covers c) (n : Nat) (hn : 1 ≤ n) (p : List VStmt) (x : SnVec)
    (hx : Ok n x) (s : List SnVec) (h : VStmt.run p [x] = some s) (C : Nat) (hC : ∀ w ∈ s, ∀ P ∈ w, P.m ≤ C)
    (hD : (p.map (VStmt.cost C)).sum ≤ 2 ^ 23) :
    ∃ s' b, Rounding.ieee.vrun ord p [x] = some s' ∧ VStmt.run (p.map VStmt.abs) [x.absVec] = some b ∧ s'.length = s.length ∧
    ∀ (i : Nat) (w : SnVec), s[i]? = some w → ∃ w' a, s'[i]? = some w' ∧ b[i]? = some a ∧
      WithinEntries ((p.map (VStmt.cost C)).sum / 2 ^ 23) a w w' := by
  have hu : us = 2⁻¹ ^ 24 := by norm_num [us]
  obtain ⟨s', b, a1, a2, a3, a4⟩ := C133_error Rounding.ieee us ieee_s (by norm_num [us]) ord hord n hn p x hx s h C hC
  refine ⟨s', b, a1, a2, a3, fun i w hw => ?_⟩
  obtain ⟨w', a, b1, b2, b3, b4, b5⟩ := a4 i w hw
  refine ⟨w', a, b1, b2, b3, b4, fun k P Q A h1 h2 h3 => ?_⟩
  obtain ⟨c1, c2, c3⟩ := b5 k P Q A h1 h2 h3
  refine ⟨c1, c2, fun i hi j hj => ?_⟩
  have hA : 0 ≤ A.data i j ∨ A.data i j < 0 := le_or_gt _ _
  have hD' : (((p.map (VStmt.cost C)).sum : Nat) : ℝ) ≤ 2 ^ 23 := by exact_mod_cast hD
  have h4 := pow_le_linear (x := us) (by norm_num [us]) (m := (p.map (VStmt.cost C)).sum) (by rw [hu]; norm_num at hD' ⊢; linarith)
  have h5 : (1 + us) ^ (p.map (VStmt.cost C)).sum - 1 ≤ (((p.map (VStmt.cost C)).sum : Nat) : ℝ) / 2 ^ 23 := by
    rw [hu] at h4 ⊢
    norm_num at h4 ⊢
    linarith
  rcases hA with hA | hA
  · exact (c3 i hi j hj).trans (mul_le_mul_of_nonneg_right h5 hA)
  · have h6 : 0 ≤ (1 + us) ^ (p.map (VStmt.cost C)).sum - 1 := sub_nonneg.2 (one_le_pow₀ (by norm_num [us]))
    have h7 := c3 i hi j hj
    have h8 := abs_nonneg (Q.data i j - P.data i j)
    rcases h6.eq_or_lt with h6 | h6
    · have h9 : (p.map (VStmt.cost C)).sum = 0 := by
        by_contra h0
        have : (1 : ℝ) < (1 + us) ^ (p.map (VStmt.cost C)).sum := one_lt_pow₀ (by norm_num [us]) h0
        linarith
      rw [h9] at h7 ⊢
      simpa using h7
    · nlinarith

theorem rnd_over : rnd 24 ((2 : ℝ) ^ 24 + 1) = 2 ^ 24 := by
  have hd : ((2 : ℝ) ^ 24 + 1) / 2 ^ (1 : ℤ) = ((2 ^ 23 : ℤ) : ℝ) + 1 / 2 := by norm_num
  have hf : Int.fract (((2 ^ 23 : ℤ) : ℝ) + 1 / 2) = 1 / 2 := by rw [Int.fract_intCast_add]; norm_num [Int.fract]
  have hfl : ⌊((2 ^ 23 : ℤ) : ℝ) + 1 / 2⌋ = 2 ^ 23 := by rw [Int.floor_intCast_add]; norm_num
  have hh : halfEven (((2 : ℝ) ^ 24 + 1) / 2 ^ (1 : ℤ)) = 2 ^ 23 := by
    rw [hd]
    unfold halfEven
    rw [hf, hfl, if_neg (lt_irrefl _), if_neg (lt_irrefl _), if_pos (by decide)]
  rw [rnd_at (e := 1) (by rw [hd]; norm_num) (by rw [hd]; norm_num), hh]
  norm_num

theorem exVec_at (a b : ℝ) : vkeys (exVec a b) = [[2, 1]] ∧ partAt (exVec a b) [2, 1] = mkP [2, 1] 1 fun i _ => if i = 0 then a else b := by
  have h2 : (mkP [2, 1] 1 fun i _ => if i = 0 then a else b).irrep.lambda = [2, 1] := (irrOf_spec (by norm_num) part21).2.1
  have := partAt_of_mem (exVec_ok a b).nodup (P := mkP [2, 1] 1 fun i _ => if i = 0 then a else b) (by simp [exVec])
  rw [h2] at this
  exact ⟨by simp [vkeys, exVec, h2], this⟩

/-- **C133 (sharpness).** One more than `2^24` is too much: the program that multiplies its input by the weight `2^24` and adds the input to
the result computes in `float`, from an entry one, `2^24` instead of `2^24+1`. -/
theorem C133_sharp : ∃ s s' w w', VStmt.run [.mul (fun _ => some (.mat 1 1 fun _ _ => 2 ^ 24)) 0, .add 1 0] [exVec 1 0] = some s ∧
    Rounding.ieee.vrun inOrderOf [.mul (fun _ => some (.mat 1 1 fun _ _ => 2 ^ 24)) 0, .add 1 0] [exVec 1 0] = some s' ∧
    s[1]? = some w ∧ s'[1]? = some w' ∧ (partAt w [2, 1]).data 0 0 = 2 ^ 24 + 1 ∧ (partAt w' [2, 1]).data 0 0 = 2 ^ 24 := by
  obtain ⟨hk, hp⟩ := exVec_at 1 0
  have hd : dimOf [2, 1] = 2 := dimOf_ex.1
  have m21 : [2, 1] ∈ vkeys (exVec 1 0) := by rw [hk]; simp
  have hW : ∀ z ∈ vkeys (exVec 1 0), (fun _ => some (.mat 1 1 fun _ _ => 2 ^ 24) : Weights) z =
      some (.mat ((fun _ => 1) z) (partAt (exVec 1 0) z).m ((fun _ _ _ => 2 ^ 24 : List Nat → Nat → Nat → ℝ) z)) := by
    intro z hz
    rw [hk, List.mem_singleton] at hz
    rw [hz, hp]; rfl
  have hst : ∀ {u : SnVec}, Ok 3 u → vkeys u = vkeys (exVec 1 0) → (∀ z ∈ vkeys (exVec 1 0), (partAt u z).m = 1) → SameType u (exVec 1 0) :=
    fun hu hku hm => sameType_of hu (exVec_ok 1 0) hku fun z hz => by
      rw [hku] at hz
      rw [hm z hz]
      rw [hk, List.mem_singleton] at hz
      rw [hz, hp]; rfl
  obtain ⟨u, a1, a2, a3, a4⟩ := mulVec_ok (by norm_num) (exVec_ok 1 0) _ _ _ hW
  obtain ⟨v, b1, b2, b3, b4⟩ := fmulVec_ok (by norm_num) Rounding.ieee inOrderOf (exVec_ok 1 0) _ _ _ hW
  have su := hst a2 a3 fun z hz => (a4 z hz).1
  have sv := hst b2 b3 fun z hz => (b4 z hz).1
  obtain ⟨w, c1, c2, c3⟩ := C86_add_partial a2 (exVec_ok 1 0) su
  obtain ⟨w', d1, d2, d3⟩ := C86_add_partial b2 (exVec_ok 1 0) sv
  obtain ⟨-, -, e3⟩ := mapData_ok (by norm_num) d2 Rounding.ieee.s
  have kw : [2, 1] ∈ vkeys w := by rw [sameType_keys c3.1, a3]; exact m21
  have kw' : [2, 1] ∈ vkeys w' := by rw [sameType_keys d3.1, b3]; exact m21
  refine ⟨[exVec 1 0, w], [exVec 1 0, w'.map fun P => { P with data := fun i j => Rounding.ieee.s (P.data i j) }], w,
    w'.map fun P => { P with data := fun i j => Rounding.ieee.s (P.data i j) }, ?_, ?_, ?_, ?_, ?_, ?_⟩
  · simp [VStmt.run, VStmt.exec, a1, c1]
  · simp [Rounding.vrun, Rounding.vexec, Rounding.addVec, b1, d1]
  · rfl
  · rfl
  · rw [comb_at c2 a2 (exVec_ok 1 0) c3 kw 0 (by rw [hd]; norm_num) 0 (by rw [sameType_m c2 a2 c3.1 kw, (a4 _ m21).1]; norm_num),
      (a4 _ m21).2, hp]
    simp [mkP]
  · rw [(e3 _ kw').2,
      comb_at d2 b2 (exVec_ok 1 0) d3 kw' 0 (by rw [hd]; norm_num) 0 (by rw [sameType_m d2 b2 d3.1 kw', (b4 _ m21).1]; norm_num),
      (b4 _ m21).2, hp]
    have r2 : rnd 24 ((2 : ℝ) ^ 24) = 2 ^ 24 := rnd_exact (by omega) ⟨1, 24, by norm_num, by norm_num⟩
    have e : Rounding.ieee.dot inOrderOf (mkP [2, 1] 1 fun i _ => if i = 0 then (1 : ℝ) else 0).m
        ((mkP [2, 1] 1 fun i _ => if i = 0 then (1 : ℝ) else 0).data 0) (fun _ => 2 ^ 24) = 2 ^ 24 := by
      simp only [Rounding.dot, mkP, inOrderOf, SumTree.inOrder, SumTree.sum, Rounding.ieee]
      simp only [one_ne_zero, if_false, if_true, one_mul]
      exact r2
    rw [e]
    simp only [mkP, if_true, one_mul]
    exact rnd_over

theorem exProg_abs : exProg.map VStmt.abs = exProg := by
  have e : Weights.absW (fun _ => some (.mat 2 1 fun j _ => if j = 0 then 5 else 7)) = fun _ => some (.mat 2 1 fun j _ => if j = 0 then (5 : ℝ) else 7) := by
    funext z
    simp only [Weights.absW, Option.map_some, Option.some.injEq, WTensor.mat.injEq, true_and]
    funext j k
    split <;> norm_num
  simp only [exProg, List.map_cons, List.map_nil, VStmt.abs, e]

/-- the program of C131 in `float`: six roundings, at most `6/2^23` of the entry -/
example : ∃ s s' w w', VStmt.run exProg [exVec 3 4] = some s ∧ Rounding.ieee.vrun inOrderOf exProg [exVec 3 4] = some s' ∧ s[2]? = some w ∧
    s'[2]? = some w' ∧ ∃ a, WithinEntries (6 / 2 ^ 23) a w w' := by
  obtain ⟨s, w, h, -, h2, -, -, -, h3⟩ := exProg_run
  have e : (exProg.map (VStmt.cost 5)).sum = 6 := by simp [exProg, VStmt.cost]
  obtain ⟨s', b, a1, a2, -, a3⟩ := C133_ieee inOrderOf inOrderOf_covers 3 (by norm_num) exProg _ (exVec_ok 3 4) s h 5 (fun w hw => (h3 w hw).2)
    (by rw [e]; norm_num)
  obtain ⟨w', a, b1, -, b2⟩ := a3 2 w h2
  refine ⟨s, s', w, w', h, a1, h2, b1, a, ?_⟩
  rw [e] at b2
  exact_mod_cast b2

/-- and as its weights and its input are integers, its entry 42 is computed exactly -/
example : ∃ s' w', Rounding.ieee.vrun inOrderOf exProg [exVec 3 4] = some s' ∧ s'[2]? = some w' ∧ ∃ Q, w'[0]? = some Q ∧ Q.data 0 1 = 42 := by
  obtain ⟨s, w, h, -, h2, h4, h5, -, h3⟩ := exProg_run
  have hab : (exVec 3 4).absVec = exVec 3 4 := by
    simp only [absVec, exVec, List.map_cons, List.map_nil, mkP, List.cons.injEq, VPart.mk.injEq, true_and, and_true]
    funext i j
    split <;> norm_num
  obtain ⟨s', b, a1, a2, a3⟩ := C133_exact inOrderOf inOrderOf_covers 3 (by norm_num) exProg (by
      intro c hc
      simp only [exProg, List.mem_cons, List.not_mem_nil, or_false] at hc
      rcases hc with rfl | rfl | rfl
      · intro z r c f hz j k
        simp only [Option.some.injEq, WTensor.mat.injEq] at hz
        obtain ⟨-, -, rfl⟩ := hz
        by_cases hj : j = 0
        · exact ⟨5, by simp [hj]⟩
        · exact ⟨7, by simp [hj]⟩
      · trivial
      · trivial) _ (exVec_ok 3 4) (by
      intro P hP i _ j _
      simp only [exVec, List.mem_singleton] at hP
      subst hP
      by_cases hi : i = 0
      · exact ⟨3, by simp [mkP, hi]⟩
      · exact ⟨4, by simp [mkP, hi]⟩) s h
  rw [exProg_abs, hab, h, Option.some.injEq] at a2
  subst a2
  obtain ⟨w', a, b1, b2, b3, b4, b5⟩ := a3 2 w h2
  rw [h2, Option.some.injEq] at b2
  subst b2
  obtain ⟨Fs, g⟩ := run_data (by norm_num) (exVec_ok 3 4) h
  obtain ⟨t, c1, c2⟩ := g _ (exVec_ok 3 4) rfl
  rw [h, Option.some.injEq] at c1
  subst c1
  obtain ⟨G, -, d⟩ := forall₂_get' c2 h2
  have kw := (h3 w (List.mem_of_getElem? h2)).1
  have hl : w.length = 1 := by have := congrArg List.length kw; simpa [vkeys] using this
  have hP : w[0]? = some w[0] := List.getElem?_eq_getElem (by omega)
  have hQ : w'[0]? = some w'[0] := List.getElem?_eq_getElem (by omega)
  have hlam : w[0].irrep.lambda = [2, 1] := by
    have : w[0].irrep.lambda ∈ vkeys w := List.mem_map.2 ⟨w[0], List.getElem_mem _, rfl⟩
    rw [kw, List.mem_singleton] at this
    exact this
  have hp : partAt w [2, 1] = w[0] := by
    have := partAt_of_mem d.ok.nodup (List.mem_of_getElem? hP)
    rwa [hlam] at this
  have hdim := partAt_d d.ok (p := [2, 1]) (by rw [kw]; simp)
  rw [hp] at h4 h5 hdim
  refine ⟨s', w', a1, b1, w'[0], hQ, ?_⟩
  have hd2 : dimOf [2, 1] = 2 := dimOf_ex.1
  rw [(b5 0 _ _ _ hP hQ hP).2 0 (by rw [hdim, hd2]; norm_num) 1 (by rw [h4]; norm_num) (by rw [h5]; norm_num), h5]

end Snob.Props
