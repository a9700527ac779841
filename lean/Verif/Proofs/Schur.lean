import Verif.Proofs.TrivSign
import Mathlib.LinearAlgebra.Matrix.Trace

/-! # Schur's lemma and the orthogonality relations -/

namespace Snob

open Matrix IP

variable {n : Nat} {p q : List Nat}

/-- two removable boxes can be removed one after the other -/
theorem common_sub {n : Nat} {p q q' : List Nat} {r r' : Nat} (hp : IsPartition (n + 2) p) (hq : IsPartition (n + 1) q)
    (hq' : IsPartition (n + 1) q') (hb : AddsBoxAt q p r) (hb' : AddsBoxAt q' p r') (hr : r ≠ r') :
    ∃ s, IsPartition n s ∧ AddsBoxAt s q r' ∧ AddsBoxAt s q' r := by
  have hc' := canRem_of_addsBoxAt hq'.sorted hb'
  have hc : CanRem q r' := by
    unfold CanRem at hc' ⊢
    have h1 := hb r'
    have h2 := hb (r' + 1)
    rw [if_neg (Ne.symm hr)] at h1
    split_ifs at h2 <;> omega
  obtain ⟨s, _, hs, hsb⟩ := isPartition_remove hq hc
  refine ⟨s, hs, hsb, fun i => ?_⟩
  have h1 := hb i
  have h2 := hb' i
  have h3 := hsb i
  split_ifs at h1 h2 h3 ⊢ <;> omega

/-- two addable boxes can be added one after the other -/
theorem common_cover {n : Nat} {s q q' : List Nat} {r r' : Nat} (hs : IsPartition n s) (hq : IsPartition (n + 1) q)
    (hq' : IsPartition (n + 1) q') (hb : AddsBoxAt s q r) (hb' : AddsBoxAt s q' r') (hr : r ≠ r') :
    ∃ p, IsPartition (n + 2) p ∧ AddsBoxAt q p r' ∧ AddsBoxAt q' p r := by
  have hc' := canAdd_of_addsBoxAt hq'.sorted hb'
  have hc : CanAdd q r' := by
    unfold CanAdd at hc' ⊢
    rcases hc' with h | ⟨h0, h⟩
    · exact Or.inl h
    · refine Or.inr ⟨h0, ?_⟩
      have h1 := hb r'
      have h2 := hb (r' - 1)
      rw [if_neg (Ne.symm hr)] at h1
      split_ifs at h2 <;> omega
  have hab := row_add q r' 1 (hr := hc.le_length)
  refine ⟨add q r' 1, isPartition_add hq hc, fun i => ?_, fun i => ?_⟩
  · rw [hab]
  · rw [hab]
    have h2 := hb' i
    have h3 := hb i
    split_ifs at h2 h3 ⊢ <;> omega

theorem offc_ne_zero {d : Int} (h : 2 ≤ d ∨ d ≤ -2) : offc d ≠ 0 := by
  have h0 : d ≠ 0 := by omega
  intro h1
  have h2 := offc_sq d h0
  rw [h1] at h2
  unfold diagc at h2
  have hd : (d : ℝ) ≠ 0 := by exact_mod_cast h0
  have h3 : (d : ℝ) * d = 1 := by field_simp at h2; linarith
  have h4 : d * d = 1 := by exact_mod_cast h3
  rcases h with h | h <;> nlinarith

/-- a function on the tableaux of a shape that is invariant under admissible exchanges is constant -/
theorem const_of_swaps {n : Nat} {p : List Nat} (hp : IsPartition n p) (t : Wd n p → ℝ)
    (h : ∀ k, 1 ≤ k → k < n → ∀ u v : Wd n p, offc (u.cont (k + 1) - u.cont k) ≠ 0 → v.cont = sw k u.cont → t u = t v)
    (u v : Wd n p) : t u = t v := by
  induction n generalizing p with
  | zero =>
    congr 1
    apply Subtype.ext
    rw [List.length_eq_zero_iff.1 (u.length hp), List.length_eq_zero_iff.1 (v.length hp)]
  | succ n ih =>
    have same : ∀ {q r} (hq : IsPartition n q) (hb : AddsBoxAt q p r) (x y : Wd n q),
        t (emb hp hq hb x) = t (emb hp hq hb y) := by
      intro q r hq hb x y
      refine ih hq (fun x => t (emb hp hq hb x)) (fun k h1 h2 x y ho hs => ?_) x y
      refine h k h1 (by omega) _ _ ?_ ((emb_sw_iff hp hq hb x y h2).2 hs)
      rw [cont_emb hp hq hb x (by omega), cont_emb hp hq hb x (by omega)]
      exact ho
    obtain ⟨q, _, hq, r, hb, u, rfl⟩ := exists_emb hp u
    obtain ⟨q', _, hq', r', hb', v, rfl⟩ := exists_emb hp v
    by_cases hr : r = r'
    · subst hr
      obtain rfl := sub_unique hq hq' hb hb'
      exact same hq hb u v
    · rcases n with _ | n
      · exfalso
        have h1 := hb r
        have h2 := hb' r
        have e1 := hq.sum
        have e2 := hq'.sum
        have : ∀ l : List Nat, IsPartition 0 l → l = [] := by
          intro l hl
          rcases l with _ | ⟨a, l⟩
          · rfl
          · have := hl.pos a (by simp)
            have := hl.sum
            simp at this; omega
        rw [this q hq, if_pos rfl] at h1
        rw [this q' hq', if_neg hr] at h2
        omega
      · obtain ⟨s, hs, hsb, hsb'⟩ := common_sub hp hq hq' hb hb' hr
        obtain ⟨w, hw⟩ := List.exists_mem_of_ne_nil _ (words_ne_nil hs)
        rw [same hq hb u (emb hq hs hsb ⟨w, hw⟩), same hq' hb' v (emb hq' hs hsb' ⟨w, hw⟩)]
        have hrow : row q r' = row p r' := by have := hb r'; rw [if_neg (Ne.symm hr)] at this; omega
        have hrow' : row q' r = row p r := by have := hb' r; rw [if_neg hr] at this; omega
        refine h (n + 1) (by omega) (by omega) _ _ ?_ ?_
        · rw [cont_emb_top, cont_emb _ _ _ _ (le_refl _), cont_emb_top, hrow]
          have c := canRem_of_addsBoxAt hq.sorted hb
          have c' := canRem_of_addsBoxAt hq'.sorted hb'
          unfold CanRem at c c'
          apply offc_ne_zero
          rcases Nat.lt_or_gt_of_ne hr with hlt | hlt
          · have := row_anti hp.sorted (i := r + 1) (j := r') (by omega)
            omega
          · have := row_anti hp.sorted (i := r' + 1) (j := r) (by omega)
            omega
        · funext m
          by_cases h1 : m = n + 1
          · subst h1
            rw [sw_lo, cont_emb _ _ _ _ (le_refl _), cont_emb_top, cont_emb_top, hrow']
          · by_cases h2 : m = n + 2
            · subst h2
              rw [sw_hi, cont_emb _ _ _ _ (le_refl _), cont_emb_top, cont_emb_top, hrow]
            · rw [sw_ne _ h1 h2]
              by_cases h3 : m ≤ n
              · rw [cont_emb _ _ _ _ (by omega), cont_emb _ _ _ _ h3, cont_emb _ _ _ _ (by omega), cont_emb _ _ _ _ h3]
              · rw [cont_large _ hp (by omega), cont_large _ hp (by omega)]

/-- an intertwiner is supported on pairs of equal words -/
theorem intertwiner_support (hp : IsPartition n p) (hq : IsPartition n q) (T : Matrix (Wd n p) (Wd n q) ℝ)
    (hT : ∀ σ, rho hp σ * T = T * rho hq σ) (u : Wd n p) (v : Wd n q) (h : T u v ≠ 0) : u.1 = v.1 := by
  have hjm : ∀ k, k < n → jm hp k * T = T * jm hq k := by
    intro k _
    unfold jm
    rw [Matrix.sum_mul, Matrix.mul_sum]
    exact Finset.sum_congr rfl fun i _ => hT _
  refine contW_injective (u.lat hp) (v.lat hq) ((u.length hp).trans (v.length hq).symm) fun m h1 h2 => ?_
  rw [u.length hp] at h2
  have := congrFun (congrFun (hjm (m - 1) (by omega)) u) v
  rw [jm_eq hp _ (by omega), jm_eq hq _ (by omega), Matrix.diagonal_mul, Matrix.mul_diagonal, mul_comm,
    Nat.sub_add_cancel h1] at this
  have := mul_left_cancel₀ h this
  exact_mod_cast this

theorem shape_unique (hp : IsPartition n p) (hq : IsPartition n q) {u : List Nat} (h : u ∈ words n p)
    (h' : u ∈ words n q) : p = q :=
  hp.ext hq fun i => by rw [← ((mem_words hp u).1 h).2 i, ((mem_words hq u).1 h').2 i]

/-- Schur's lemma, different shapes -/
theorem schur_ne (hp : IsPartition n p) (hq : IsPartition n q) (hne : p ≠ q) (T : Matrix (Wd n p) (Wd n q) ℝ)
    (hT : ∀ σ, rho hp σ * T = T * rho hq σ) : T = 0 := by
  ext u v
  by_contra h
  have := intertwiner_support hp hq T hT u v h
  exact hne (shape_unique hp hq u.2 (this ▸ v.2))

/-- Schur's lemma, equal shapes -/
theorem schur_eq (hp : IsPartition n p) (T : Matrix (Wd n p) (Wd n p) ℝ)
    (hT : ∀ σ, rho hp σ * T = T * rho hp σ) : ∃ c : ℝ, T = c • (1 : Matrix (Wd n p) (Wd n p) ℝ) := by
  classical
  have hdiag : ∀ u v, u ≠ v → T u v = 0 := by
    intro u v huv
    by_contra h
    exact huv (Subtype.ext (intertwiner_support hp hp T hT u v h))
  have hT' : T = Matrix.diagonal fun u => T u u := by
    ext u v
    by_cases e : u = v
    · subst e; rw [Matrix.diagonal_apply_eq]
    · rw [hdiag u v e, Matrix.diagonal_apply_ne _ e]
  have hc := const_of_swaps hp (fun u => T u u) (fun k h1 h2 u v ho hs => by
    have := congrFun (congrFun (hT (adj n (k - 1))) u) v
    rw [rho_adj hp (by omega), Nat.sub_add_cancel h1, hT', Matrix.mul_diagonal, Matrix.diagonal_mul] at this
    have hM : yorM n p k u v = offc (u.cont (k + 1) - u.cont k) := by
      unfold yorM
      rw [if_neg, if_pos hs]
      rintro rfl
      have := congrFun hs k
      rw [sw_lo] at this
      exact v.cont_ne hp h1 h2 this.symm
    rw [hM, mul_comm] at this
    exact (mul_right_cancel₀ ho this).symm)
  obtain ⟨u0, hu0⟩ := List.exists_mem_of_ne_nil _ (words_ne_nil hp)
  refine ⟨T ⟨u0, hu0⟩ ⟨u0, hu0⟩, ?_⟩
  rw [hT']
  ext u v
  rw [Matrix.smul_apply, Matrix.diagonal_apply, Matrix.one_apply]
  split_ifs
  · rw [Matrix.diagonal_apply_eq, smul_eq_mul, mul_one]; exact hc u _
  · simp

/-- averaging over the group -/
noncomputable def avg (hp : IsPartition n p) (hq : IsPartition n q) (E : Matrix (Wd n p) (Wd n q) ℝ) :
    Matrix (Wd n p) (Wd n q) ℝ := ∑ σ : Equiv.Perm (Fin n), rho hp σ * E * rho hq σ⁻¹

theorem avg_intertwines (hp : IsPartition n p) (hq : IsPartition n q) (E : Matrix (Wd n p) (Wd n q) ℝ)
    (τ : Equiv.Perm (Fin n)) : rho hp τ * avg hp hq E = avg hp hq E * rho hq τ := by
  unfold avg
  rw [Matrix.mul_sum, Matrix.sum_mul, ← Equiv.sum_comp (Equiv.mulLeft τ) (fun σ => rho hp σ * E * rho hq σ⁻¹ * rho hq τ)]
  refine Finset.sum_congr rfl fun σ _ => ?_
  rw [Equiv.coe_mulLeft, mul_inv_rev, map_mul, map_mul]
  simp only [Matrix.mul_assoc]
  rw [← map_mul (rho hq) τ⁻¹ τ, inv_mul_cancel, map_one, Matrix.mul_one]

theorem avg_apply (hp : IsPartition n p) (hq : IsPartition n q) (b : Wd n p) (d : Wd n q) (a : Wd n p) (c : Wd n q) :
    avg hp hq (Matrix.single b d 1) a c = ∑ σ, rho hp σ a b * rho hq σ c d := by
  unfold avg
  rw [Matrix.sum_apply]
  refine Finset.sum_congr rfl fun σ _ => ?_
  rw [rho_inv, Matrix.mul_apply, Finset.sum_eq_single d]
  · rw [Matrix.mul_single_apply_same, Matrix.transpose_apply, mul_one]
  · intro x _ hx
    rw [Matrix.mul_single_apply_of_ne (hbj := hx), zero_mul]
  · simp

theorem orthogonality_ne (hp : IsPartition n p) (hq : IsPartition n q) (hne : p ≠ q) (a b : Wd n p) (c d : Wd n q) :
    ∑ σ, rho hp σ a b * rho hq σ c d = 0 := by
  rw [← avg_apply, schur_ne hp hq hne _ (avg_intertwines hp hq _), Matrix.zero_apply]

theorem card_Wd (hp : IsPartition n p) : Fintype.card (Wd n p) = (words n p).length := by
  have := Fintype.card_congr ((words_nodup hp).getEquiv _)
  rw [Fintype.card_fin] at this
  rw [this]

theorem card_Wd_pos (hp : IsPartition n p) : 0 < Fintype.card (Wd n p) := by
  rw [card_Wd hp]; exact List.length_pos_iff.2 (words_ne_nil hp)

open scoped Nat in
theorem orthogonality_eq (hp : IsPartition n p) (a b c d : Wd n p) :
    ∑ σ, rho hp σ a b * rho hp σ c d =
      if a = c ∧ b = d then (n ! : ℝ) / Fintype.card (Wd n p) else 0 := by
  obtain ⟨x, hx⟩ := schur_eq hp _ (avg_intertwines hp hp (Matrix.single b d 1))
  have htr : Matrix.trace (avg hp hp (Matrix.single b d (1 : ℝ))) = if b = d then (n ! : ℝ) else 0 := by
    unfold avg
    rw [Matrix.trace_sum]
    have : ∀ σ ∈ (Finset.univ : Finset (Equiv.Perm (Fin n))),
        Matrix.trace (rho hp σ * Matrix.single b d (1 : ℝ) * rho hp σ⁻¹) = if b = d then 1 else 0 := by
      intro σ _
      rw [Matrix.trace_mul_comm, ← Matrix.mul_assoc, ← map_mul, inv_mul_cancel, map_one, Matrix.one_mul]
      by_cases e : b = d
      · subst e; rw [if_pos rfl, Matrix.trace_single_eq_same]
      · rw [if_neg e, Matrix.trace_single_eq_of_ne _ _ _ e]
    rw [Finset.sum_congr rfl this, Finset.sum_const, Finset.card_univ, Fintype.card_perm, Fintype.card_fin]
    split_ifs <;> simp
  rw [← avg_apply, hx, Matrix.smul_apply, Matrix.one_apply]
  rw [hx, Matrix.trace_smul, Matrix.trace_one] at htr
  have hd : (Fintype.card (Wd n p) : ℝ) ≠ 0 := by exact_mod_cast (card_Wd_pos hp).ne'
  rw [smul_eq_mul] at htr
  have hxv : x = if b = d then (n ! : ℝ) / Fintype.card (Wd n p) else 0 := by
    rw [eq_div_of_mul_eq hd htr]
    split_ifs <;> simp
  rw [hxv]
  split_ifs <;> simp_all

end Snob
