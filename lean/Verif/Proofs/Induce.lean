import Verif.Proofs.Complete

/-! # The sum over the partitions covering a given one of their diagonal blocks -/

namespace Snob

open IP
open scoped Nat

open Classical in
/-- the diagonal block of a matrix of shape `p` over `q` -/
noncomputable def blk {l : Nat} {p q : List Nat} (hp : IsPartition (l + 1) p) (hq : IsPartition l q)
    (M : Wd (l + 1) p → Wd (l + 1) p → ℝ) (u w : Wd l q) : ℝ :=
  if h : ∃ r, AddsBoxAt q p r then M (emb hp hq h.choose_spec u) (emb hp hq h.choose_spec w) else 0

theorem blk_eq {l r : Nat} {p q : List Nat} (hp : IsPartition (l + 1) p) (hq : IsPartition l q) (hb : AddsBoxAt q p r)
    (M : Wd (l + 1) p → Wd (l + 1) p → ℝ) (u w : Wd l q) :
    blk hp hq M u w = M (emb hp hq hb u) (emb hp hq hb w) := by
  unfold blk
  have h : ∃ r, AddsBoxAt q p r := ⟨r, hb⟩
  rw [dif_pos h]
  obtain rfl : h.choose = r := addsBoxAt_unique h.choose_spec hb
  rfl

theorem blk_none {l : Nat} {p q : List Nat} (hp : IsPartition (l + 1) p) (hq : IsPartition l q) (hb : ¬ AddsBox q p)
    (M : Wd (l + 1) p → Wd (l + 1) p → ℝ) (u w : Wd l q) : blk hp hq M u w = 0 := by
  unfold blk
  rw [dif_neg]
  exact hb

theorem blk_sum {l : Nat} {p q : List Nat} (hp : IsPartition (l + 1) p) (hq : IsPartition l q) {ι : Type*} (s : Finset ι)
    (M : ι → Wd (l + 1) p → Wd (l + 1) p → ℝ) (u w : Wd l q) :
    blk hp hq (fun a b => ∑ i ∈ s, M i a b) u w = ∑ i ∈ s, blk hp hq (M i) u w := by
  by_cases h : AddsBox q p
  · obtain ⟨r, hb⟩ := h
    simp only [blk_eq hp hq hb]
  · simp only [blk_none hp hq h, Finset.sum_const_zero]

theorem blk_mul {l : Nat} {p q : List Nat} (hp : IsPartition (l + 1) p) (hq : IsPartition l q) (c : ℝ)
    (M : Wd (l + 1) p → Wd (l + 1) p → ℝ) (u w : Wd l q) :
    blk hp hq (fun a b => c * M a b) u w = c * blk hp hq M u w := by
  by_cases h : AddsBox q p
  · obtain ⟨r, hb⟩ := h
    simp only [blk_eq hp hq hb]
  · simp only [blk_none hp hq h, mul_zero]

open Classical in
/-- averaging against an entry of `q` gives a matrix unit -/
theorem avg_unit {l : Nat} {p q : List Nat} (hp : IsPartition (l + 1) p) (hq : IsPartition l q) (u w : Wd l q)
    (a b : Wd (l + 1) p) :
    (dimW l q : ℝ) / l ! * ∑ τ : Equiv.Perm (Fin l), rho hq τ u w * rho hp (extend τ) a b =
      if ∃ r, ∃ hb : AddsBoxAt q p r, a = emb hp hq hb u ∧ b = emb hp hq hb w then 1 else 0 := by
  have hd : (dimW l q : ℝ) ≠ 0 := by exact_mod_cast (dimW_pos hq).ne'
  have hl : (l ! : ℝ) ≠ 0 := by exact_mod_cast (Nat.factorial_pos l).ne'
  obtain ⟨q1, -, hq1, r1, hb1, a', rfl⟩ := exists_emb hp a
  obtain ⟨q2, -, hq2, r2, hb2, b', rfl⟩ := exists_emb hp b
  have hval : ∀ {q q' : List Nat} {r r' : Nat} (hq : IsPartition l q) (hb : AddsBoxAt q p r) (hq' : IsPartition l q')
      (hb' : AddsBoxAt q' p r') (x : Wd l q) (y : Wd l q'), emb hp hq hb x = emb hp hq' hb' y → r = r' := by
    intro q q' r r' hq hb hq' hb' x y h
    exact (List.cons.inj (congrArg Subtype.val h)).1
  by_cases e : r1 = r2
  · subst e
    obtain rfl := sub_unique hq1 hq2 hb1 hb2
    simp only [rho_emb]
    by_cases e1 : q = q1
    · subst e1
      rw [orthogonality_eq, card_Wd hq, ← dimW]
      by_cases e2 : u = a' ∧ w = b'
      · rw [if_pos e2, if_pos ⟨r1, hb1, by rw [e2.1], by rw [e2.2]⟩]
        field_simp
      · rw [if_neg e2, if_neg, mul_zero]
        rintro ⟨r, hb, h1, h2⟩
        obtain rfl := addsBoxAt_unique hb hb1
        exact e2 ⟨(emb_injective hp hq hb h1).symm, (emb_injective hp hq hb h2).symm⟩
    · rw [orthogonality_ne hq hq1 e1, if_neg, mul_zero]
      rintro ⟨r, hb, h1, -⟩
      obtain rfl := hval _ _ _ _ _ _ h1
      exact e1 (sub_unique hq hq1 hb hb1)
  · rw [if_neg]
    · simp only [rho_emb_ne hp hq2 hb2 hq1 hb1 (Ne.symm e), mul_zero, Finset.sum_const_zero]
    · rintro ⟨r, hb, h1, h2⟩
      exact e ((hval _ _ _ _ _ _ h1).trans (hval _ _ _ _ _ _ h2).symm)

open Classical in
theorem sum_blk {l : Nat} {q : List Nat} (hq : IsPartition l q) (g : Equiv.Perm (Fin (l + 1))) (u w : Wd l q) :
    ∑ p : Pt (l + 1), (dimW (l + 1) p.1 : ℝ) * blk p.2 hq (fun a b => rho p.2 g a b) w u =
      (dimW l q : ℝ) / l ! * ∑ τ : Equiv.Perm (Fin l), rho hq τ u w * if g * extend τ = 1 then ((l + 1)! : ℝ) else 0 := by
  have h1 : ∀ p : Pt (l + 1), blk p.2 hq (fun a b => rho p.2 g a b) w u =
      (dimW l q : ℝ) / l ! * ∑ τ : Equiv.Perm (Fin l), rho hq τ u w * Matrix.trace (rho p.2 (g * extend τ)) := by
    intro p
    have e1 : ∀ τ : Equiv.Perm (Fin l), Matrix.trace (rho p.2 (g * extend τ)) =
        ∑ b, ∑ a, rho p.2 g b a * rho p.2 (extend τ) a b := by
      intro τ
      rw [map_mul]; rfl
    simp only [e1, Finset.mul_sum]
    rw [Finset.sum_comm]
    have e2 : ∀ b : Wd (l + 1) p.1, ∑ τ : Equiv.Perm (Fin l), ∑ a, (dimW l q : ℝ) / l ! * (rho hq τ u w * (rho p.2 g b a * rho p.2 (extend τ) a b)) =
        ∑ a, rho p.2 g b a * if ∃ r, ∃ hb : AddsBoxAt q p.1 r, a = emb p.2 hq hb u ∧ b = emb p.2 hq hb w then 1 else 0 := by
      intro b
      rw [Finset.sum_comm]
      refine Finset.sum_congr rfl fun a _ => ?_
      rw [← avg_unit p.2 hq u w a b, Finset.mul_sum, Finset.mul_sum]
      refine Finset.sum_congr rfl fun τ _ => ?_
      ring
    rw [Finset.sum_congr rfl fun b _ => e2 b]
    by_cases h : AddsBox q p.1
    · obtain ⟨r, hb⟩ := h
      rw [blk_eq p.2 hq hb, Finset.sum_eq_single (emb p.2 hq hb w), Finset.sum_eq_single (emb p.2 hq hb u)]
      · rw [if_pos ⟨r, hb, rfl, rfl⟩, mul_one]
      · intro a _ ha
        rw [if_neg, mul_zero]
        rintro ⟨r', hb', h1, h2⟩
        obtain rfl := addsBoxAt_unique hb hb'
        exact ha h1
      · simp
      · intro b _ hb0
        refine Finset.sum_eq_zero fun a _ => ?_
        rw [if_neg, mul_zero]
        rintro ⟨r', hb', h1, h2⟩
        obtain rfl := addsBoxAt_unique hb hb'
        exact hb0 h2
      · simp
    · rw [blk_none p.2 hq h]
      symm
      refine Finset.sum_eq_zero fun b _ => Finset.sum_eq_zero fun a _ => ?_
      rw [if_neg, mul_zero]
      rintro ⟨r', hb', -, -⟩
      exact h ⟨r', hb'⟩
  simp only [h1]
  rw [Finset.mul_sum]
  simp only [Finset.mul_sum]
  rw [Finset.sum_comm]
  refine Finset.sum_congr rfl fun τ _ => ?_
  rw [← completeness_trace, Finset.mul_sum, Finset.mul_sum]
  refine Finset.sum_congr rfl fun p _ => ?_
  ring

/-- on a permutation that fixes the last point -/
theorem sum_blk_extend {l : Nat} {q : List Nat} (hq : IsPartition l q) (g : Equiv.Perm (Fin l)) (u w : Wd l q) :
    ∑ p : Pt (l + 1), (dimW (l + 1) p.1 : ℝ) * blk p.2 hq (fun a b => rho p.2 (extend g) a b) u w = (dimW l q : ℝ) * (l + 1) * rho hq g u w := by
  classical
  rw [sum_blk hq (extend g) w u, Finset.sum_eq_single g⁻¹]
  · have hl : (l ! : ℝ) ≠ 0 := by exact_mod_cast (Nat.factorial_pos l).ne'
    rw [if_pos (by rw [extend_inv, mul_inv_cancel]), rho_inv, Matrix.transpose_apply, Nat.factorial_succ]
    push_cast
    field_simp
  · intro τ _ hτ
    rw [if_neg, mul_zero]
    intro h
    rw [← extend_mul, ← extend_one] at h
    exact hτ (eq_inv_of_mul_eq_one_right (extend_injective h))
  · simp

/-- on a permutation that moves the last point -/
theorem sum_blk_zero {l : Nat} {q : List Nat} (hq : IsPartition l q) (g : Equiv.Perm (Fin (l + 1))) (hg : g (Fin.last l) ≠ Fin.last l)
    (u w : Wd l q) : ∑ p : Pt (l + 1), (dimW (l + 1) p.1 : ℝ) * blk p.2 hq (fun a b => rho p.2 g a b) u w = 0 := by
  classical
  rw [sum_blk hq g w u, Finset.sum_eq_zero, mul_zero]
  intro τ _
  rw [if_neg, mul_zero]
  intro h
  apply hg
  have := congrArg (fun f : Equiv.Perm (Fin (l + 1)) => f (Fin.last l)) h
  simpa [extend_last] using this

end Snob
