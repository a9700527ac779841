import Verif.Proofs.LetterNear
import Verif.Spec.LetterWeights
import Verif.Props.FloatProg

/-! Programs with weights that have errors (property C144). -/

namespace Snob

open SnVec Weights Props

variable {n m : Nat}

/-- a dot product with factors that have errors -/
theorem dot_err_weights {F : Rounding} {u : ℝ} (hs : RelErr u F.s) (hu : 0 ≤ u) {ord : Nat → SumTree} (hord : ∀ c, 1 ≤ c → (ord c).Covers c)
    {η : ℝ} (hη : 0 ≤ η) (K : ℝ) (e c : Nat) (x y a f f' : Nat → ℝ) (h : ∀ k < c, |x k| ≤ a k ∧ |y k - x k| ≤ (K * (1 + u) ^ e - 1) * a k)
    (hf : ∀ k, |f' k - f k| ≤ η * |f k|) :
    |∑ k ∈ Finset.range c, x k * f k| ≤ ∑ k ∈ Finset.range c, a k * |f k| ∧
    |F.dot ord c y f' - ∑ k ∈ Finset.range c, x k * f k| ≤ (K * (1 + η) * (1 + u) ^ (e + c) - 1) * ∑ k ∈ Finset.range c, a k * |f k| := by
  have hρ : ∀ k, ∃ ρ : ℝ, f' k = ρ * f k ∧ |ρ - 1| ≤ η := by
    intro k
    by_cases h0 : f k = 0
    · refine ⟨1, ?_, by simpa using hη⟩
      have := hf k
      rw [h0, abs_zero, mul_zero, sub_zero] at this
      rw [h0, mul_zero]
      exact abs_nonpos_iff.1 this
    · refine ⟨f' k / f k, by field_simp, ?_⟩
      rw [show f' k / f k - 1 = (f' k - f k) / f k by field_simp, abs_div, div_le_iff₀ (abs_pos.2 h0)]
      exact hf k
  choose ρ r1 r2 using hρ
  have e1 : F.dot ord c y f' = F.dot ord c (fun k => y k * ρ k) f := by
    have : (fun k => F.s (y k * f' k)) = fun k => F.s (y k * ρ k * f k) := funext fun k => by rw [r1 k, mul_assoc]
    unfold Rounding.dot
    rw [this]
  rw [e1]
  refine dot_err_from hs hu hord (K * (1 + η)) e c x (fun k => y k * ρ k) a f fun k hk => ?_
  obtain ⟨h1, h2⟩ := h k hk
  refine ⟨h1, ?_⟩
  have h3 : |y k| ≤ K * (1 + u) ^ e * a k := by
    have := abs_add_le (x k) (y k - x k)
    rw [add_sub_cancel] at this
    linarith
  have h4 : |y k * ρ k - x k| ≤ |y k| * |ρ k - 1| + |y k - x k| := by
    rw [← abs_mul, show y k * ρ k - x k = y k * (ρ k - 1) + (y k - x k) by ring]
    exact abs_add_le _ _
  have h5 : |y k| * |ρ k - 1| ≤ K * (1 + u) ^ e * a k * η :=
    (mul_le_mul_of_nonneg_left (r2 k) (abs_nonneg _)).trans (mul_le_mul_of_nonneg_right h3 hη)
  have : (K * (1 + η) * (1 + u) ^ e - 1) * a k = K * (1 + u) ^ e * a k * η + (K * (1 + u) ^ e - 1) * a k := by ring
  linarith

/-- a product with weights that have errors -/
theorem rel3_mul_weights (hn : 1 ≤ n) {F : Rounding} {ord : Nat → SumTree} {R R' : ℝ → ℝ → ℝ → Prop} {η : ℝ} {C : Nat}
    (H : ∀ c ≤ C, ∀ x y a f f' : Nat → ℝ, (∀ k < c, R (x k) (y k) (a k)) → (∀ k, |f' k - f k| ≤ η * |f k|) →
      R' (∑ k ∈ Finset.range c, x k * f k) (F.dot ord c y f') (∑ k ∈ Finset.range c, a k * |f k|))
    {K : List (List Nat)} {q : SnVec × SnVec × SnVec} (h : Rel3 n R K q) {W W' : Weights} (hW : W.NearW η W')
    (hC : ∀ P ∈ q.1, P.m ≤ C) {u : SnVec} (hu : mulVec W q.1 = some u) :
    ∃ u2 u3, F.mulVec ord W' q.2.1 = some u2 ∧ mulVec W.absW q.2.2 = some u3 ∧ Rel3 n R' K (u, u2, u3) := by
  obtain ⟨r, f, b1, b2, b3, b4⟩ := mul_data hn h.ok1 hu
  rw [h.k1] at b1 b3 b4
  have hf : ∀ z, ∃ f', z ∈ K → W' z = some (.mat (r z) (partAt q.1 z).m f') ∧ ∀ j k, |f' j k - f z j k| ≤ η * |f z j k| := by
    intro z
    by_cases hz : z ∈ K
    · obtain ⟨f', h1, h2⟩ := hW z _ _ _ (b1 z hz)
      exact ⟨f', fun _ => ⟨h1, h2⟩⟩
    · exact ⟨f z, fun hz' => absurd hz' hz⟩
  choose f' hf' using hf
  obtain ⟨u2, c1, c2, c3, c4⟩ := fmulVec_ok hn F ord h.ok2 W' r f' fun z hz => by
    rw [h.k2] at hz; rw [(hf' z hz).1, h.m2 z hz]
  obtain ⟨u3, d1, d2, d3, d4⟩ := mulVec_ok hn h.ok3 W.absW r (fun z j k => |f z j k|) fun z hz => by
    rw [h.k3] at hz; rw [absW_get (b1 z hz), h.m3 z hz]
  rw [h.k2] at c3 c4
  rw [h.k3] at d3 d4
  refine ⟨u2, u3, c1, d1, b2, c2, d2, b3, c3, d3, fun z hz => by rw [(c4 z hz).1, (b4 z hz).1], fun z hz => by rw [(d4 z hz).1, (b4 z hz).1],
    fun z hz i hi j _ => ?_⟩
  simp only
  rw [(b4 z hz).2, (c4 z hz).2, (d4 z hz).2, h.m2 z hz, h.m3 z hz]
  refine H _ ?_ _ _ _ _ _ (fun k hk => h.data z hz i hi k hk) fun k => (hf' z hz).2 j k
  obtain ⟨-, -, -, -, e1, -⟩ := index_partAt h.ok1 (mu := z) (show z ∈ vkeys q.1 by rw [h.k1]; exact hz)
  exact hC _ e1

variable {F : Rounding} {ord : Nat → SumTree} {u η δ : ℝ} {C : Nat} {eig : Eig}

/-- the error after `k` products with weights and `e` roundings -/
def ErrAt (u η δ : ℝ) (k e : Nat) (x y a : ℝ) : Prop := |x| ≤ a ∧ |y - x| ≤ ((1 + δ) * (1 + η) ^ k * (1 + u) ^ e - 1) * a

theorem ErrAt.mono (hu : 0 ≤ u) (hη : 0 ≤ η) (hδ : 0 ≤ δ) {k k' e e' : Nat} (hk : k ≤ k') (he : e ≤ e') {x y a : ℝ} (h : ErrAt u η δ k e x y a) :
    ErrAt u η δ k' e' x y a := by
  refine ⟨h.1, h.2.trans (mul_le_mul_of_nonneg_right (sub_le_sub_right ?_ 1) ((abs_nonneg _).trans h.1))⟩
  have h1 : (1 + η) ^ k ≤ (1 + η) ^ k' := pow_le_pow_right₀ (by linarith) hk
  have h2 : (1 + u) ^ e ≤ (1 + u) ^ e' := pow_le_pow_right₀ (by linarith) he
  gcongr

theorem ErrAt.add (hs : RelErr u F.s) (hu : 0 ≤ u) {k e : Nat} {x y a x' y' a' : ℝ} (h : ErrAt u η δ k e x y a) (h' : ErrAt u η δ k e x' y' a') :
    ErrAt u η δ k (e + 1) (x + x') (F.s (y + y')) (a + a') := by
  have h1 : |x + x'| ≤ a + a' := (abs_add_le _ _).trans (add_le_add h.1 h'.1)
  refine ⟨h1, ?_⟩
  have h2 : |y + y' - (x + x')| ≤ ((1 + δ) * (1 + η) ^ k * (1 + u) ^ e - 1) * (a + a') := by
    rw [show y + y' - (x + x') = (y - x) + (y' - x') by ring, mul_add]
    exact (abs_add_le _ _).trans (add_le_add h.2 h'.2)
  refine (hs.le hu h2 h1).trans (le_of_eq ?_)
  rw [pow_succ]; ring

/-- one statement -/
theorem weights_exec (hs : RelErr u F.s) (hu : 0 ≤ u) (hη : 0 ≤ η) (hδ : 0 ≤ δ) (hord : ∀ c, 1 ≤ c → (ord c).Covers c) (hm : 1 ≤ m)
    {k e : Nat} {t : List (SnVec × SnVec × SnVec)} (ht : ∀ q ∈ t, ∃ d, Floats3 (ErrAt u η δ k e) (m + d) q)
    {c c' : LStmt} (hp : c.Linear) (hc : c.Near η c') (hC : ∀ q ∈ t, ∀ P ∈ q.1, P.m ≤ C) (hF : c.Fits m (t.map fun q => q.1))
    {s' : List SnVec} (h : c.exec eig (t.map fun q => q.1) = some s') :
    ∃ t' : List (SnVec × SnVec × SnVec), s' = t'.map (fun q => q.1) ∧ F.lexec ord c' (t.map fun q => q.2.1) = some (t'.map fun q => q.2.1) ∧
      c.abs.exec eig (t.map fun q => q.2.2) = some (t'.map fun q => q.2.2) ∧
      ∀ q ∈ t', ∃ d, Floats3 (ErrAt u η δ (k + c.muls) (e + c.cost C)) (m + d) q := by
  have same : c' = c → ∃ t' : List (SnVec × SnVec × SnVec), s' = t'.map (fun q => q.1) ∧
      F.lexec ord c' (t.map fun q => q.2.1) = some (t'.map fun q => q.2.1) ∧
      c.abs.exec eig (t.map fun q => q.2.2) = some (t'.map fun q => q.2.2) ∧
      ∀ q ∈ t', ∃ d, Floats3 (ErrAt u η δ (k + c.muls) (e + c.cost C)) (m + d) q := by
    rintro rfl
    obtain ⟨t', a1, a2, a3, a4⟩ := floats3_exec (F := F) (ord := ord) (R := ErrAt u η δ k) (G := fun _ => True) (C := C) (eig := eig) hm
      (fun e e' x y a he h => h.mono hu hη hδ le_rfl he)
      (fun e c hc x y a f h _ => ErrAt.mono hu hη hδ le_rfl (Nat.add_le_add_left hc e)
        (dot_err_from hs hu hord ((1 + δ) * (1 + η) ^ k) e c x y a f h))
      (fun e x y a x' y' a' h h' => h.add hs hu h') ht hp
      (by rcases c' with (c | _) | _ | _ <;> [cases c <;> simp [LStmt.AllW, VStmt.AllW]; trivial; trivial; trivial]) hC hF h
    refine ⟨t', a1, a2, a3, fun q hq => ?_⟩
    obtain ⟨d, g⟩ := a4 q hq
    exact ⟨d, g.mono fun x y a g => g.mono hu hη hδ (Nat.le_add_right _ _) le_rfl⟩
  rcases c with ((⟨W, i⟩ | ⟨i, is⟩ | ⟨i, j⟩) | ⟨i, j⟩) | i | ⟨tau, i⟩
  · obtain ⟨W', rfl, hW⟩ := hc
    change (((t.map fun q => q.1)[i]?).bind fun v => (mulVec W v).bind fun w => some ((t.map fun q => q.1) ++ [w])) = some s' at h
    obtain ⟨v, hi, h⟩ := Option.bind_eq_some_iff.1 h
    obtain ⟨w, hw, h⟩ := Option.bind_eq_some_iff.1 h
    cases h
    rw [List.getElem?_map, Option.map_eq_some_iff] at hi
    obtain ⟨q, hi', rfl⟩ := hi
    have hq := List.mem_of_getElem? hi'
    obtain ⟨d, r⟩ := ht q hq
    obtain ⟨u2, u3, a1, a2, a3⟩ := rel3_mul_weights (F := F) (ord := ord) (R' := ErrAt u η δ (k + 1) (e + C)) (η := η) (C := C) (by omega)
      (fun c hc x y a f f' h hf => ErrAt.mono hu hη hδ le_rfl (Nat.add_le_add_left hc e) (by
        have := dot_err_weights hs hu hord hη ((1 + δ) * (1 + η) ^ k) e c x y a f f' h hf
        rwa [mul_assoc (1 + δ), ← pow_succ] at this)) r.rel hW (hC q hq) hw
    refine ⟨t ++ [(w, u2, u3)], by simp, ?_, ?_, fun q' hq' => ?_⟩
    · change (((t.map fun q => q.2.1)[i]?).bind fun v => (F.mulVec ord W' v).bind fun w => some ((t.map fun q => q.2.1) ++ [w])) = _
      rw [List.getElem?_map, hi', Option.map_some, Option.bind_some, a1, List.map_append]; rfl
    · change (((t.map fun q => q.2.2)[i]?).bind fun v => (mulVec W.absW v).bind fun w => some ((t.map fun q => q.2.2) ++ [w])) = _
      rw [List.getElem?_map, hi', Option.map_some, Option.bind_some, a2, List.map_append]; rfl
    · rcases List.mem_append.1 hq' with hq' | hq'
      · obtain ⟨d, g⟩ := ht q' hq'
        exact ⟨d, g.mono fun x y a g => g.mono hu hη hδ (Nat.le_add_right _ _) (Nat.le_add_right _ _)⟩
      · rw [List.mem_singleton.1 hq']
        exact ⟨d, Floats3.of a3⟩
  all_goals exact same hc

/-- a program -/
theorem weights_run (hs : RelErr u F.s) (hu : 0 ≤ u) (hη : 0 ≤ η) (hδ : 0 ≤ δ) (hord : ∀ c, 1 ≤ c → (ord c).Covers c) (hm : 1 ≤ m)
    {p p' : List LStmt} (hpp : List.Forall₂ (LStmt.Near η) p p') : ∀ {k e : Nat} {t : List (SnVec × SnVec × SnVec)},
    (∀ q ∈ t, ∃ d, Floats3 (ErrAt u η δ k e) (m + d) q) → (∀ c ∈ p, c.Linear) → LStmt.AllFit eig m p (t.map fun q => q.1) →
    ∀ {s' : List SnVec}, LStmt.run eig p (t.map fun q => q.1) = some s' → (∀ w ∈ s', ∀ P ∈ w, P.m ≤ C) →
    ∃ t' : List (SnVec × SnVec × SnVec), s' = t'.map (fun q => q.1) ∧ F.lrun ord p' (t.map fun q => q.2.1) = some (t'.map fun q => q.2.1) ∧
      LStmt.run eig (p.map LStmt.abs) (t.map fun q => q.2.2) = some (t'.map fun q => q.2.2) ∧
      ∀ q ∈ t', ∃ d, Floats3 (ErrAt u η δ (k + (p.map LStmt.muls).sum) (e + (p.map (LStmt.cost C)).sum)) (m + d) q := by
  induction hpp with
  | nil =>
    intro k e t ht _ _ s' h _
    cases h
    exact ⟨t, rfl, rfl, rfl, by simpa using ht⟩
  | @cons c c' p p' hc _ ih =>
    intro k e t ht hp hF s' h hC
    obtain ⟨s1, h1, h2⟩ := Option.bind_eq_some_iff.1
      (show (c.exec eig (t.map fun q => q.1)).bind (fun s => LStmt.run eig p s) = some s' from h)
    have hb := lexec_bound (hp c (by simp)) h1 (lrun_bound (fun c hc => hp c (by simp [hc])) h2 hC)
    obtain ⟨t1, a1, a2, a3, a4⟩ := weights_exec (ord := ord) hs hu hη hδ hord hm ht (hp c (by simp)) hc
      (fun q hq => hb q.1 (List.mem_map.2 ⟨q, hq, rfl⟩)) hF.1 h1
    subst a1
    obtain ⟨t2, b1, b2, b3, b4⟩ := ih a4 (fun c hc => hp c (by simp [hc])) (hF.2 _ h1) h2 hC
    refine ⟨t2, b1, ?_, ?_, fun q hq => ?_⟩
    · change (F.lexec ord c' _).bind (fun s => F.lrun ord p' s) = _
      rw [a2]; exact b2
    · rw [List.map_cons]
      change (c.abs.exec eig _).bind (fun s => LStmt.run eig (p.map LStmt.abs) s) = _
      rw [a3]; exact b3
    · simp only [List.map_cons, List.sum_cons, ← Nat.add_assoc]
      exact b4 q hq

end Snob
