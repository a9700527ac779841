import Verif.Props.Symmetry
import Verif.Props.SnElements
import Verif.Props.Irrep
import Verif.Proofs.ViewSpec

/-! # Property C122: functions of the coset, and functions on a subgroup -/

namespace Snob

open IP Perm
open scoped Nat

variable {n : Nat}

theorem hat_elem {p : List Nat} (hp : IsPartition n p) (F : Equiv.Perm (Fin n) → ℝ) (u w : Wd n p) :
    hat hp F u w = ∑ e ∈ Finset.range (n !), F (elem n e) * rho hp (elem n e)⁻¹ u w :=
  (sum_elem fun σ => F σ * rho hp σ⁻¹ u w).symm

/-- a function depends on the coset only, exactly if the columns without `1..m` in row zero vanish -/
theorem hat_coset {m : Nat} (hm : 0 < m) (hn : m ≤ n) (F : Equiv.Perm (Fin n) → ℝ) :
    (∀ e < n !, ∀ e' < n !, e / m ! = e' / m ! → F (elem n e) = F (elem n e')) ↔
      ∀ q : Pt n, ∀ u w : Wd n q.1, goodW m w.1 = false → hat q.2 F u w = 0 := by
  have hpos := Nat.factorial_pos m
  have hlt : ∀ c < n ! / m !, ∀ j < m !, c * m ! + j < n ! := fun c hc j hj => by
    calc c * m ! + j < (c + 1) * m ! := by rw [Nat.add_mul]; omega
      _ ≤ n ! / m ! * m ! := Nat.mul_le_mul_right _ hc
      _ = n ! := quot_mul hn
  have hdiv : ∀ c, ∀ j < m !, (c * m ! + j) / m ! = c := fun c j hj => by
    rw [Nat.add_comm, Nat.add_mul_div_right _ _ hpos, Nat.div_eq_of_lt hj, Nat.zero_add]
  constructor
  · intro h q u w hw
    rw [hat_elem, ← lift_bad hm hn q.2 (fun c => F (elem n (c * m !))) u w hw]
    refine Finset.sum_congr rfl fun e he => ?_
    have he := Finset.mem_range.1 he
    have hle : e / m ! * m ! ≤ e := Nat.div_mul_le_self e (m !)
    rw [h e he (e / m ! * m !) (by omega) (by rw [Nat.mul_div_cancel _ hpos])]
  · intro h e he e' he' hee
    let G : Nat → ℝ := fun c => (∑ j ∈ Finset.range (m !), F (elem n (c * m ! + j))) / (m ! : ℝ)
    obtain ⟨L, hL⟩ : ∃ L : Equiv.Perm (Fin n) → ℝ, ∀ e < n !, L (elem n e) = G (e / m !) :=
      ⟨fun σ => G (((elemEquiv n).symm σ : Nat) / m !), fun e he => by
        have : (elemEquiv n).symm (elem n e) = ⟨e, he⟩ := by rw [Equiv.symm_apply_eq]; rfl
        simp only [this]⟩
    have hF : F = L := hat_injective fun q => by
      ext u w
      have e1 : hat q.2 L u w = ∑ e ∈ Finset.range (n !), G (e / m !) * rho q.2 (elem n e)⁻¹ u w := by
        rw [hat_elem]
        exact Finset.sum_congr rfl fun e he => by rw [hL e (Finset.mem_range.1 he)]
      cases hw : goodW m w.1 with
      | false => rw [h q u w hw, e1, lift_bad hm hn q.2 G u w hw]
      | true =>
        rw [e1, lift_good hm hn q.2 G u w hw, hat_elem]
        conv_lhs => rw [← quot_mul hn]
        rw [sum_range_mul', Finset.mul_sum]
        refine Finset.sum_congr rfl fun c hc => ?_
        rw [Finset.sum_congr rfl fun j hj => by
          rw [rho_coset hm n hn q.1 q.2 c j (Finset.mem_range.1 hc) (Finset.mem_range.1 hj) u w hw], ← Finset.sum_mul]
        have hne : (m ! : ℝ) ≠ 0 := by exact_mod_cast hpos.ne'
        show _ = (m ! : ℝ) * (_ / _ * _)
        field_simp
    rw [hF, hL e he, hL e' he', hee]

namespace Props

theorem startCols_mem {m : Nat} {p : List Nat} {hp : IsPartition n p} {R : IrrepObj} (h : Repr' hp R) (hm : m ≤ n) (j : Fin R.d) :
    (j : Nat) ∈ startCols m R.tableaux ↔ goodW m (h.eqv j).1 = true := by
  constructor
  · intro hj
    obtain ⟨k, hk⟩ := List.mem_iff_getElem?.1 hj
    obtain ⟨hj', hg, -⟩ := h.startCols_get hm hk
    exact hg
  · intro hg
    have hjw : (j : Nat) < (words n p).length := by rw [← h.d_eq]; exact j.2
    classical
    unfold startCols
    rw [List.mem_filter, List.mem_range, h.tab, List.length_map, decide_eq_true_iff]
    refine ⟨hjw, toTab (words n p)[(j : Nat)], by rw [List.getElem?_map, List.getElem?_eq_getElem hjw]; rfl, ?_⟩
    exact (startsWith_iff hp hm ⟨_, List.getElem_mem hjw⟩).2 hg

/-- **C122.** A function on `Sn` takes the same value at any two elements of the same coset of `Sm` exactly if in every part of its transform
the columns vanish that belong to tableaux without `1..m` in the first row. -/
theorem C122_cosets (n m : Nat) (hm : 1 ≤ m) (hn : m ≤ n) (f : Cells ℝ) (hf : Written (snSize n) f) (ws : List VPart) (h : TransformOf n f ws) :
    (∀ a b, IsPerm n a → IsPerm n b → SameCoset n m a b → (snGroup n).value f a = (snGroup n).value f b) ↔
      ∀ W ∈ ws, ∀ i < W.d, ∀ j < W.m, j ∉ startCols m W.irrep.tableaux → W.data i j = 0 := by
  have hn1 : 1 ≤ n := by omega
  obtain ⟨f, rfl⟩ := (written_iff (I := snGroup n) (e := elemEquiv n) f).1 hf
  have hI := snGroup_implements n hn1
  have e1 : (∀ a b, IsPerm n a → IsPerm n b → SameCoset n m a b →
      (snGroup n).value (cellsOf (I := snGroup n) (elemEquiv n) f) a = (snGroup n).value (cellsOf (I := snGroup n) (elemEquiv n) f) b) ↔
      ∀ e < n !, ∀ e' < n !, e / m ! = e' / m ! → f (elem n e) = f (elem n e') := by
    constructor
    · intro H e he e' he' hee
      have := H _ _ ⟨elem n e, rfl⟩ ⟨elem n e', rfl⟩ ((sameCoset_iff _ _).2 ((coset_iff n m hn e e' he he').1 hee))
      rw [hI.value_eq, hI.value_eq, Option.some.injEq] at this
      exact this
    · rintro H _ _ ⟨σ, rfl⟩ ⟨τ, rfl⟩ hc
      obtain ⟨e, he, rfl⟩ := exists_elem n σ
      obtain ⟨e', he', rfl⟩ := exists_elem n τ
      rw [hI.value_eq, hI.value_eq, H e he e' he' ((coset_iff n m hn e e' he he').2 ((sameCoset_iff _ _).1 hc))]
  rw [e1, hat_coset hm hn]
  constructor
  · intro H W hW i hi j hj hjn
    obtain ⟨k, hk⟩ := List.getElem?_of_mem hW
    obtain ⟨q, hr, _, d1, m1, hv⟩ := entry_hat hn1 h hk
    have hj' : j < W.irrep.d := by rw [← m1]; exact hj
    rw [show W.data i j = _ from hv ⟨i, by rw [← d1]; exact hi⟩ ⟨j, hj'⟩]
    refine H q _ _ ?_
    have := (startCols_mem hr hn ⟨j, hj'⟩).not.1 hjn
    simpa using this
  · intro H q u w hw
    obtain ⟨k, W, hk, hq⟩ := transform_at hn1 h q
    obtain ⟨q', hr, hq', d1, m1, hv⟩ := entry_hat hn1 h hk
    obtain rfl : q = q' := Subtype.ext (Option.some.inj (hq.symm.trans hq'))
    obtain ⟨a, rfl⟩ := hr.eqv.surjective u
    obtain ⟨b, rfl⟩ := hr.eqv.surjective w
    rw [← hv a b]
    refine H W (List.mem_of_getElem? hk) a (by rw [d1]; exact a.2) b (by rw [m1]; exact b.2) fun hb => ?_
    rw [(startCols_mem hr hn b).1 hb] at hw
    cases hw

theorem elem_extend {n e : Nat} (he : e < n !) : elem (n + 1) e = extend (elem n e) := by
  have h1 := elem_succ' (l := n) (t := 0) (e := 0) (Nat.factorial_pos n)
  have h2 := elem_succ' (l := n) (t := 0) (e := e) he
  simp only [Nat.mul_zero, Nat.add_zero] at h1 h2
  rw [elem_zero, elem_zero, extend_one, one_mul] at h1
  rw [h2, ← h1, mul_one]

/-- **C122.** The transform of a function on `S(n+1)` that vanishes outside `Sn` (the first `n!` elements) is block diagonal, and the blocks are
the parts of the transform on `Sn` at the shapes with one box less. -/
theorem C122_subgroup (n : Nat) (hn : 1 ≤ n) (f g : Nat → ℝ) (hfg : ∀ e < snSize n, f e = g e) (h0 : ∀ e, snSize n ≤ e → e < snSize (n + 1) → f e = 0)
    (ws vs : List VPart) (hs : HasShape allCols (partitions (n + 1)) ws) (ht : IsTransform (snSize (n + 1)) (fun c => element (n + 1) c) f allCols ws)
    (hs' : HasShape allCols (partitions n) vs) (ht' : IsTransform (snSize n) (fun c => element n c) g allCols vs)
    (k : Nat) (p : List Nat) (W : VPart) (hk : (partitions (n + 1))[k]? = some p) (hW : ws[k]? = some W) :
    ∃ (ps : List (List Nat)) (S : List IrrepObj) (V : Nat → VPart), IP.parents p = some ps ∧ ps.mapM mkIrrep = some S ∧ W.d = (S.map (·.d)).sum ∧
      (∀ x q Q, ps[x]? = some q → S[x]? = some Q →
        ∃ c : Nat, (partitions n)[c]? = some q ∧ vs[c]? = some (V x) ∧ (V x).irrep = Q ∧ (V x).d = Q.d ∧ (V x).m = Q.d) ∧
      ∀ x y Q Q' i j, S[x]? = some Q → S[y]? = some Q' → i < Q.d → j < Q'.d →
        W.data (((S.take x).map (·.d)).sum + i) (((S.take y).map (·.d)).sum + j) = if x = y then (V x).data i j else 0 := by
  have hp := (mem_partitions (n + 1) (by omega) p).1 (List.mem_of_getElem? hk)
  obtain ⟨hmk, hd, hm⟩ := hs.2 k p W hk hW
  have hlen : (allCols W.irrep).length = W.irrep.d := by simp [allCols]
  obtain ⟨R, A, ps, S, c1, c2, c3, c4, c5, -⟩ := C28_restriction_block_diagonal n hn p hp _ ⟨(1 : Equiv.Perm (Fin n)), rfl⟩
  obtain rfl : R = W.irrep := Option.some.inj (c1.symm.trans hmk)
  have hV : ∀ x : Nat, ∃ V : VPart, ∀ (q : List Nat) (Q : IrrepObj), ps[x]? = some q → S[x]? = some Q →
      ∃ c : Nat, (partitions n)[c]? = some q ∧ vs[c]? = some V ∧ V.irrep = Q ∧ V.d = Q.d ∧ V.m = Q.d := by
    intro x
    cases hx : ps[x]? with
    | none => exact ⟨W, fun q Q h => by cases h⟩
    | some q =>
      have hq : IsPartition n q := by
        have e := parents_eq hp (by omega)
        rw [c3] at e
        obtain rfl := Option.some.inj e
        exact ((mem_subs hp q).1 (List.mem_of_getElem? hx)).1
      obtain ⟨c, hc⟩ := List.mem_iff_getElem?.1 ((mem_partitions n hn q).2 hq)
      have hlt : c < vs.length := by rw [hs'.1]; exact (List.getElem?_eq_some_iff.1 hc).1
      refine ⟨vs[c], fun q' Q h hQ => ?_⟩
      obtain rfl := Option.some.inj h
      obtain ⟨v1, v2, v3⟩ := hs'.2 c q _ hc (List.getElem?_eq_getElem hlt)
      have e : mkIrrep q = some Q := by
        obtain ⟨Q', h2, h3⟩ := ((mapM_some_iff _ _ _).1 c4).2 x q hx
        obtain rfl := Option.some.inj (hQ.symm.trans h2)
        exact h3
      obtain rfl : vs[c].irrep = Q := Option.some.inj (v1.symm.trans e)
      exact ⟨c, hc, List.getElem?_eq_getElem hlt, rfl, v2, by rw [v3]; simp [allCols]⟩
  choose V hV using hV
  refine ⟨ps, S, V, c3, c4, by rw [hd, c5], hV, fun x y Q Q' i j hx hy hi hj => ?_⟩
  have hxl : x < S.length := (List.getElem?_eq_some_iff.1 hx).1
  have hlen' := ((mapM_some_iff _ _ _).1 c4).1
  have hpx : ps[x]? = some (ps[x]'(by omega)) := List.getElem?_eq_getElem _
  obtain ⟨cx, v1, v2, v3, v4, v5⟩ := hV x _ Q hpx hx
  obtain ⟨ρ, r1, r2⟩ := ht W (List.mem_of_getElem? hW)
  obtain ⟨ρ', s1, s2⟩ := ht' (V x) (List.mem_of_getElem? v2)
  have hoff : ∀ (x : Nat) (Q : IrrepObj) (i : Nat), S[x]? = some Q → i < Q.d → ((S.take x).map (·.d)).sum + i < W.irrep.d := by
    intro x Q i hx hi
    obtain ⟨hlt, rfl⟩ := List.getElem?_eq_some_iff.1 hx
    rw [c5]
    conv_rhs => rw [← List.take_append_drop x S, List.map_append, List.sum_append, List.drop_eq_getElem_cons hlt, List.map_cons, List.sum_cons]
    omega
  have hi' := hoff x Q i hx hi
  have hj' := hoff y Q' j hy hj
  rw [r2 _ (by rw [hd]; exact hi') _ _ (show (allCols W.irrep)[_]? = some _ from List.getElem?_range hj')]
  have hsz : snSize (n + 1) = snSize n + (snSize (n + 1) - snSize n) := by
    have : n ! ≤ (n + 1) ! := Nat.factorial_le (by omega)
    unfold snSize
    omega
  rw [hsz, Finset.sum_range_add, Finset.sum_eq_zero (s := Finset.range (snSize (n + 1) - snSize n)), add_zero]
  swap
  · intro c hc
    have := Finset.mem_range.1 hc
    rw [h0 _ (by omega) (by omega), zero_mul]
  have hterm : ∀ c < snSize n, ρ c (((S.take x).map (·.d)).sum + i) (((S.take y).map (·.d)).sum + j) = if x = y then ρ' c i j else 0 := by
    intro c hc
    obtain ⟨s, t, t1, t2, t3⟩ := r1 c (by omega)
    obtain ⟨s', t', u1, u2, u3⟩ := s1 c hc
    simp only at u1 t1
    rw [element_eq n c hc] at u1
    obtain rfl := Option.some.inj u1
    rw [inverse_eq] at u2
    obtain rfl := Option.some.inj u2
    rw [element_eq (n + 1) c (by unfold snSize at hsz hc; omega)] at t1
    obtain rfl := Option.some.inj t1
    rw [inverse_eq] at t2
    obtain rfl := Option.some.inj t2
    rw [elem_extend hc, ← extend_inv, enc_extend] at t3
    obtain ⟨R', A', ps', S', k1, k2, k3, k4, -, B, k6, k7⟩ := C28_restriction_block_diagonal n hn p hp _ ⟨(elem n c)⁻¹, rfl⟩
    obtain rfl : R' = W.irrep := Option.some.inj (k1.symm.trans hmk)
    obtain rfl : ps' = ps := Option.some.inj (k3.symm.trans c3)
    obtain rfl : S' = S := Option.some.inj (k4.symm.trans c4)
    obtain rfl : A' = ρ c := Option.some.inj (k2.symm.trans t3)
    rw [k7 x y Q Q' i j hx hy hi hj]
    have hB := k6 x Q hx
    rw [v3, hB] at u3
    rw [Option.some.inj u3]
  rw [Finset.sum_congr rfl fun c hc => by rw [hterm c (Finset.mem_range.1 hc), hfg c (Finset.mem_range.1 hc)]]
  by_cases e : x = y
  · subst e
    obtain rfl : Q = Q' := Option.some.inj (hx.symm.trans hy)
    simp only [if_true]
    rw [s2 i (by omega) j j (by rw [v3]; exact List.getElem?_range hj)]
  · simp only [if_neg e, mul_zero, Finset.sum_const_zero]

/-- As coded, for `n≤4`: which functions have transforms with zero columns. -/
theorem C122_fft_partial (n m : Nat) (hm : 1 ≤ m) (hn : m ≤ n) (h4 : n ≤ 4) (f : Cells ℝ) (hf : Written (snSize n) f) (F : Nat → ℝ)
    (hF : ∀ c < snSize n, rdC f c = some (F c)) :
    ∃ ws, fft n F = some ws ∧
      ((∀ a b, IsPerm n a → IsPerm n b → SameCoset n m a b → (snGroup n).value f a = (snGroup n).value f b) ↔
        ∀ W ∈ ws, ∀ i < W.d, ∀ j < W.m, j ∉ startCols m W.irrep.tableaux → W.data i j = 0) := by
  obtain ⟨ws, h1, h2⟩ := C39_fft_partial n (by omega) h4 f F hF
  exact ⟨ws, h1, C122_cosets n m hm hn f hf ws h2⟩

/-! ### examples -/

/-- the hypotheses of `C122_cosets` can be met, for every function -/
example (f : Cells ℝ) (hf : Written (snSize 6) f) : ∃ ws, TransformOf 6 f ws ∧
    ((∀ a b, IsPerm 6 a → IsPerm 6 b → SameCoset 6 3 a b → (snGroup 6).value f a = (snGroup 6).value f b) ↔
      ∀ W ∈ ws, ∀ i < W.d, ∀ j < W.m, j ∉ startCols 3 W.irrep.tableaux → W.data i j = 0) := by
  obtain ⟨ws, h⟩ := exists_transform 6 (by omega) f hf
  exact ⟨ws, h, C122_cosets 6 3 (by omega) (by omega) f hf ws h⟩

/-- the hypotheses of `C122_subgroup` can be met: a function on `S4` that vanishes outside `S3`, and its restriction -/
example : ∃ ws vs : List VPart, fft 4 (fun e => if e < 6 then 1 else 0) = some ws ∧ fft 3 (fun _ => 1) = some vs ∧
    ∀ (k : Nat) (p : List Nat) (W : VPart), (partitions 4)[k]? = some p → ws[k]? = some W →
      ∃ (ps : List (List Nat)) (S : List IrrepObj), IP.parents p = some ps ∧ ps.mapM mkIrrep = some S ∧ W.d = (S.map (·.d)).sum := by
  obtain ⟨ws, h1, h2, h3⟩ := C37_fft_partial 4 (by omega) (by omega) (fun e => if e < 6 then 1 else 0)
  obtain ⟨vs, k1, k2, k3⟩ := C37_fft_partial 3 (by omega) (by omega) (fun _ => 1)
  refine ⟨ws, vs, h1, k1, fun k p W hk hW => ?_⟩
  obtain ⟨ps, S, V, a1, a2, a3, -⟩ := C122_subgroup 3 (by omega) _ _ (fun e he => if_pos (show e < 6 from he))
    (fun e he _ => if_neg (not_lt.2 (show 6 ≤ e from he))) ws vs h2 h3 k2 k3 k p W hk hW
  exact ⟨ps, S, a1, a2, a3⟩

end Props

end Snob
