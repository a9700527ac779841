import Verif.Proofs.Schur
import Verif.Proofs.NatPartition
import Mathlib.LinearAlgebra.Matrix.NonsingularInverse
import Mathlib.Algebra.BigOperators.Field

/-! # Dimension formulas and completeness -/

namespace Snob

open Matrix IP
open scoped Nat

/-- partitions of `n` -/
abbrev Pt (n : Nat) := {p : List Nat // IsPartition n p}

noncomputable instance (n : Nat) : Fintype (Pt n) :=
  Fintype.ofEquiv _ (Equiv.ofBijective _ (toNatPartition_bijective n)).symm

/-- number of tableaux -/
def dimW (n : Nat) (p : List Nat) : Nat := (words n p).length

theorem dimW_pos {n : Nat} {p : List Nat} (hp : IsPartition n p) : 0 < dimW n p :=
  List.length_pos_iff.2 (words_ne_nil hp)

theorem IsPartition.length_le {n : Nat} {p : List Nat} (hp : IsPartition n p) : p.length ≤ n := by
  rw [← hp.sum]
  have : ∀ l : List Nat, (∀ x ∈ l, 0 < x) → l.length ≤ l.sum := by
    intro l
    induction l with
    | nil => simp
    | cons a l ih =>
      intro h
      have h1 := h a (by simp)
      have h2 := ih fun x hx => h x (by simp [hx])
      simp only [List.length_cons, List.sum_cons]; omega
  exact this p hp.pos

theorem canAdd_zero (q : List Nat) : CanAdd q 0 := Or.inl rfl

open Classical in
theorem sum_subs {n : Nat} {p : List Nat} (hp : IsPartition (n + 1) p) (f : List Nat → Nat) :
    ((subs p).map f).sum = ∑ q : Pt n, if AddsBox q.1 p then f q.1 else 0 := by
  rw [← List.sum_toFinset f (subs_nodup p), ← Finset.sum_filter]
  symm
  refine Finset.sum_bij (fun q _ => q.1) (fun q hq => ?_) (fun a _ b _ h => Subtype.ext h) (fun q hq => ?_) (fun _ _ => rfl)
  · rw [List.mem_toFinset, mem_subs hp]
    exact ⟨q.2, (Finset.mem_filter.1 hq).2⟩
  · rw [List.mem_toFinset, mem_subs hp] at hq
    exact ⟨⟨q, hq.1⟩, by simp [hq.2], rfl⟩

open Classical in
/-- branching of dimensions -/
theorem dimW_succ {n : Nat} {p : List Nat} (hp : IsPartition (n + 1) p) :
    dimW (n + 1) p = ∑ q : Pt n, if AddsBox q.1 p then dimW n q.1 else 0 := by
  rw [← sum_subs hp (dimW n)]
  unfold dimW
  simp only [words, List.length_flatMap, List.length_map]

theorem addsBox_row_ne {n : Nat} {q q' p : List Nat} {r r' : Nat} (hq : IsPartition n q) (hq' : IsPartition n q')
    (hne : q ≠ q') (h : AddsBoxAt q p r) (h' : AddsBoxAt q' p r') : r ≠ r' := by
  rintro rfl
  exact hne (sub_unique hq hq' h h')

theorem addsBox_row_ne' {m n : Nat} {s q q' : List Nat} {r r' : Nat} (hq : IsPartition m q) (hq' : IsPartition n q')
    (hne : q ≠ q') (h : AddsBoxAt s q r) (h' : AddsBoxAt s q' r') : r ≠ r' := by
  rintro rfl
  exact hne (hq.ext hq' fun i => by rw [h i, h' i])

open Classical in
/-- two different partitions have as many common covers as common sub-partitions -/
theorem card_common {n : Nat} (q q' : Pt (n + 1)) (hne : q ≠ q') :
    (Finset.univ.filter fun p : Pt (n + 2) => AddsBox q.1 p.1 ∧ AddsBox q'.1 p.1).card =
      (Finset.univ.filter fun s : Pt n => AddsBox s.1 q.1 ∧ AddsBox s.1 q'.1).card := by
  have hne' : q.1 ≠ q'.1 := fun e => hne (Subtype.ext e)
  have h1 : (Finset.univ.filter fun p : Pt (n + 2) => AddsBox q.1 p.1 ∧ AddsBox q'.1 p.1).card ≤ 1 := by
    rw [Finset.card_le_one]
    intro p hp p2 hp2
    obtain ⟨⟨r, hr⟩, r', hr'⟩ := (Finset.mem_filter.1 hp).2
    obtain ⟨⟨x, hx⟩, x', hx'⟩ := (Finset.mem_filter.1 hp2).2
    have e1 := addsBox_row_ne q.2 q'.2 hne' hr hr'
    have e2 : r = x := by
      have a1 := hr r; have a2 := hr' r; have a3 := hx r; have a4 := hx' r
      rw [if_pos rfl] at a1
      rw [if_neg e1] at a2
      split_ifs at a3 a4 <;> omega
    subst e2
    exact Subtype.ext (p.2.ext p2.2 fun i => by rw [hr i, hx i])
  have h2 : (Finset.univ.filter fun s : Pt n => AddsBox s.1 q.1 ∧ AddsBox s.1 q'.1).card ≤ 1 := by
    rw [Finset.card_le_one]
    intro p hp p2 hp2
    obtain ⟨⟨r, hr⟩, r', hr'⟩ := (Finset.mem_filter.1 hp).2
    obtain ⟨⟨x, hx⟩, x', hx'⟩ := (Finset.mem_filter.1 hp2).2
    have e1 := addsBox_row_ne' q.2 q'.2 hne' hr hr'
    have e2 : r = x := by
      have a1 := hr r; have a2 := hr' r; have a3 := hx r; have a4 := hx' r
      rw [if_pos rfl] at a1
      rw [if_neg e1] at a2
      split_ifs at a3 a4 <;> omega
    subst e2
    refine Subtype.ext (p.2.ext p2.2 fun i => ?_)
    have := hr i; have := hx i
    omega
  have h3 : (Finset.univ.filter fun p : Pt (n + 2) => AddsBox q.1 p.1 ∧ AddsBox q'.1 p.1).Nonempty ↔
      (Finset.univ.filter fun s : Pt n => AddsBox s.1 q.1 ∧ AddsBox s.1 q'.1).Nonempty := by
    constructor
    · rintro ⟨p, hp⟩
      obtain ⟨⟨r, hr⟩, r', hr'⟩ := (Finset.mem_filter.1 hp).2
      obtain ⟨s, hs, h1, h2⟩ := common_sub p.2 q.2 q'.2 hr hr' (addsBox_row_ne q.2 q'.2 hne' hr hr')
      exact ⟨⟨s, hs⟩, by simp only [Finset.mem_filter, Finset.mem_univ, true_and]; exact ⟨⟨_, h1⟩, _, h2⟩⟩
    · rintro ⟨p, hp⟩
      obtain ⟨⟨r, hr⟩, r', hr'⟩ := (Finset.mem_filter.1 hp).2
      obtain ⟨s, hs, h1, h2⟩ := common_cover p.2 q.2 q'.2 hr hr' (addsBox_row_ne' q.2 q'.2 hne' hr hr')
      exact ⟨⟨s, hs⟩, by simp only [Finset.mem_filter, Finset.mem_univ, true_and]; exact ⟨⟨_, h1⟩, _, h2⟩⟩
  rw [← Finset.card_pos, ← Finset.card_pos] at h3
  omega

open Classical in
theorem card_covers {n : Nat} (q : Pt n) :
    (Finset.univ.filter fun p : Pt (n + 1) => AddsBox q.1 p.1).card =
      ((Finset.range (n + 1)).filter fun r => CanAdd q.1 r).card := by
  refine Finset.card_bij (fun p hp => Classical.choose (Finset.mem_filter.1 hp).2) ?_ ?_ ?_
  · intro p hp
    have h := Classical.choose_spec (Finset.mem_filter.1 hp).2
    rw [Finset.mem_filter, Finset.mem_range]
    have hc := canAdd_of_addsBoxAt p.2.sorted h
    have := hc.le_length
    have := q.2.length_le
    exact ⟨by omega, hc⟩
  · intro p hp p2 hp2 e
    have h := Classical.choose_spec (Finset.mem_filter.1 hp).2
    have h' := Classical.choose_spec (Finset.mem_filter.1 hp2).2
    rw [← e] at h'
    exact Subtype.ext (p.2.ext p2.2 fun i => by rw [h i, h' i])
  · intro r hr
    have hc := (Finset.mem_filter.1 hr).2
    have hb : AddsBoxAt q.1 (add q.1 r 1) r := fun i => by rw [row_add q.1 r 1 _ hc.le_length]
    refine ⟨⟨add q.1 r 1, isPartition_add q.2 hc⟩, by simp only [Finset.mem_filter, Finset.mem_univ, true_and]; exact ⟨r, hb⟩, ?_⟩
    exact addsBoxAt_unique (Classical.choose_spec (p := fun r' => AddsBoxAt q.1 (add q.1 r 1) r') ⟨r, hb⟩) hb

open Classical in
theorem card_subs {n : Nat} (p : Pt (n + 1)) :
    (Finset.univ.filter fun q : Pt n => AddsBox q.1 p.1).card =
      ((Finset.range (n + 1)).filter fun r => CanRem p.1 r).card := by
  refine Finset.card_bij (fun q hq => Classical.choose (Finset.mem_filter.1 hq).2) ?_ ?_ ?_
  · intro q hq
    have h := Classical.choose_spec (Finset.mem_filter.1 hq).2
    rw [Finset.mem_filter, Finset.mem_range]
    have hc := canRem_of_addsBoxAt q.2.sorted h
    have := hc.lt_length
    have := p.2.length_le
    exact ⟨by omega, hc⟩
  · intro q hq q2 hq2 e
    have h := Classical.choose_spec (Finset.mem_filter.1 hq).2
    have h' := Classical.choose_spec (Finset.mem_filter.1 hq2).2
    rw [← e] at h'
    exact Subtype.ext (sub_unique q.2 q2.2 h h')
  · intro r hr
    have hc := (Finset.mem_filter.1 hr).2
    obtain ⟨q, _, hq, hb⟩ := isPartition_remove p.2 hc
    refine ⟨⟨q, hq⟩, by simp only [Finset.mem_filter, Finset.mem_univ, true_and]; exact ⟨r, hb⟩, ?_⟩
    exact addsBoxAt_unique (Classical.choose_spec (p := fun r' => AddsBoxAt q p.1 r') ⟨r, hb⟩) hb

open Classical in
theorem card_covers_eq {n : Nat} (q : Pt (n + 1)) :
    (Finset.univ.filter fun p : Pt (n + 2) => AddsBox q.1 p.1).card =
      (Finset.univ.filter fun s : Pt n => AddsBox s.1 q.1).card + 1 := by
  rw [card_covers, card_subs, ← Finset.card_image_of_injective (s := (Finset.range (n + 1)).filter fun r => CanRem q.1 r)
    (Nat.succ_injective)]
  rw [← Finset.card_insert_of_notMem (a := 0) (by simp)]
  congr 1
  ext r
  rw [Finset.mem_filter, Finset.mem_range, Finset.mem_insert, Finset.mem_image]
  rcases r with _ | r
  · simp [canAdd_zero]
  · have e : CanAdd q.1 (r + 1) ↔ CanRem q.1 r := by simp [CanAdd, CanRem]
    simp only [Finset.mem_filter, Finset.mem_range, e]
    constructor
    · rintro ⟨h1, h2⟩; exact Or.inr ⟨r, ⟨by omega, h2⟩, rfl⟩
    · rintro (h | ⟨x, ⟨h1, h2⟩, h3⟩)
      · omega
      · obtain rfl : x = r := Nat.succ_injective h3
        exact ⟨by omega, h2⟩

open Classical in
/-- `∑_{λ⋗μ} f_λ = (n+1) f_μ` -/
theorem sum_covers {n : Nat} (q : Pt n) :
    (∑ p : Pt (n + 1), if AddsBox q.1 p.1 then dimW (n + 1) p.1 else 0) = (n + 1) * dimW n q.1 := by
  induction n with
  | zero =>
    rw [← Finset.sum_filter]
    have hone : ∀ p : Pt 1, dimW 1 p.1 = dimW 0 q.1 := by
      intro p
      rw [dimW_succ p.2]
      have hall : ∀ s : Pt 0, s = q := by
        have : ∀ l : List Nat, IsPartition 0 l → l = [] := by
          intro l hl
          rcases l with _ | ⟨a, l⟩
          · rfl
          · have := hl.pos a (by simp)
            have := hl.sum
            simp at this; omega
        exact fun s => Subtype.ext ((this _ s.2).trans (this _ q.2).symm)
      rw [Finset.sum_eq_single q (fun b _ hb => absurd (hall b) hb) (by simp), if_pos]
      have hne := words_ne_nil p.2
      obtain ⟨w, hw⟩ := List.exists_mem_of_ne_nil _ hne
      obtain ⟨q', _, hq', r, hb, -⟩ := exists_emb p.2 ⟨w, hw⟩
      rw [← hall ⟨q', hq'⟩]
      exact ⟨r, hb⟩
    rw [Finset.sum_congr rfl fun p _ => hone p, Finset.sum_const, card_covers, smul_eq_mul]
    congr 1
    rw [Finset.range_one, Finset.filter_singleton, if_pos (canAdd_zero _), Finset.card_singleton]
  | succ n ih =>
    have e1 : (∑ p : Pt (n + 2), if AddsBox q.1 p.1 then dimW (n + 2) p.1 else 0) =
        ∑ q' : Pt (n + 1), (Finset.univ.filter fun p : Pt (n + 2) => AddsBox q.1 p.1 ∧ AddsBox q'.1 p.1).card *
          dimW (n + 1) q'.1 := by
      have : ∀ p : Pt (n + 2), (if AddsBox q.1 p.1 then dimW (n + 2) p.1 else 0) =
          ∑ q' : Pt (n + 1), if AddsBox q.1 p.1 ∧ AddsBox q'.1 p.1 then dimW (n + 1) q'.1 else 0 := by
        intro p
        by_cases h : AddsBox q.1 p.1
        · rw [if_pos h, dimW_succ p.2]
          exact Finset.sum_congr rfl fun q' _ => by simp [h]
        · rw [if_neg h]
          symm
          exact Finset.sum_eq_zero fun q' _ => by simp [h]
      rw [Finset.sum_congr rfl fun p _ => this p, Finset.sum_comm]
      refine Finset.sum_congr rfl fun q' _ => ?_
      rw [← Finset.sum_filter, Finset.sum_const, smul_eq_mul]
    have e2 : ∀ q' : Pt (n + 1),
        (Finset.univ.filter fun p : Pt (n + 2) => AddsBox q.1 p.1 ∧ AddsBox q'.1 p.1).card =
        (Finset.univ.filter fun s : Pt n => AddsBox s.1 q.1 ∧ AddsBox s.1 q'.1).card + if q' = q then 1 else 0 := by
      intro q'
      by_cases h : q' = q
      · subst h
        rw [if_pos rfl]
        simp only [and_self]
        exact card_covers_eq q'
      · rw [if_neg h, add_zero]
        exact card_common q q' fun e => h e.symm
    have e3 : ∑ q' : Pt (n + 1), (Finset.univ.filter fun s : Pt n => AddsBox s.1 q.1 ∧ AddsBox s.1 q'.1).card *
        dimW (n + 1) q'.1 = ∑ s : Pt n, if AddsBox s.1 q.1 then
          (∑ q' : Pt (n + 1), if AddsBox s.1 q'.1 then dimW (n + 1) q'.1 else 0) else 0 := by
      have : ∀ s : Pt n, (if AddsBox s.1 q.1 then
          (∑ q' : Pt (n + 1), if AddsBox s.1 q'.1 then dimW (n + 1) q'.1 else 0) else 0) =
          ∑ q' : Pt (n + 1), if AddsBox s.1 q.1 ∧ AddsBox s.1 q'.1 then dimW (n + 1) q'.1 else 0 := by
        intro s
        by_cases h : AddsBox s.1 q.1
        · simp [h]
        · simp [h]
      rw [Finset.sum_congr rfl fun s _ => this s, Finset.sum_comm]
      refine Finset.sum_congr rfl fun q' _ => ?_
      rw [← Finset.sum_filter, Finset.sum_const, smul_eq_mul]
    rw [e1, Finset.sum_congr rfl fun q' _ => by rw [e2 q', add_mul], Finset.sum_add_distrib, e3]
    simp only [ih]
    have e4 : (∑ s : Pt n, if AddsBox s.1 q.1 then (n + 1) * dimW n s.1 else 0) = (n + 1) * dimW (n + 1) q.1 := by
      rw [dimW_succ q.2, Finset.mul_sum]
      exact Finset.sum_congr rfl fun s _ => by simp
    rw [e4]
    have e5 : (∑ q' : Pt (n + 1), (if q' = q then 1 else 0) * dimW (n + 1) q'.1) = dimW (n + 1) q.1 := by
      rw [Finset.sum_eq_single q]
      · simp
      · intro b _ hb; simp [hb]
      · simp
    rw [e5]
    ring

open Classical in
/-- `∑ f_λ² = n!` -/
theorem sum_sq (n : Nat) : (∑ p : Pt n, dimW n p.1 * dimW n p.1) = n ! := by
  induction n with
  | zero =>
    have hz : IsPartition 0 [] := ⟨by simp, by simp, by simp⟩
    rw [Finset.sum_eq_single ⟨[], hz⟩]
    · simp [dimW, words]
    · intro b _ hb
      exfalso
      apply hb
      obtain ⟨l, hl⟩ := b
      apply Subtype.ext
      rcases l with _ | ⟨a, l⟩
      · rfl
      · have := hl.pos a (by simp)
        have := hl.sum
        simp at this; omega
    · simp
  | succ n ih =>
    have : ∀ p : Pt (n + 1), dimW (n + 1) p.1 * dimW (n + 1) p.1 =
        ∑ q : Pt n, dimW n q.1 * if AddsBox q.1 p.1 then dimW (n + 1) p.1 else 0 := by
      intro p
      conv_lhs => rw [dimW_succ p.2, ← dimW_succ p.2]
      nth_rewrite 1 [dimW_succ p.2]
      rw [Finset.sum_mul]
      refine Finset.sum_congr rfl fun q _ => ?_
      split_ifs <;> simp
    rw [Finset.sum_congr rfl fun p _ => this p, Finset.sum_comm]
    have : ∀ q : Pt n, (∑ p : Pt (n + 1), dimW n q.1 * if AddsBox q.1 p.1 then dimW (n + 1) p.1 else 0) =
        (n + 1) * (dimW n q.1 * dimW n q.1) := by
      intro q
      rw [← Finset.mul_sum, sum_covers]
      ring
    rw [Finset.sum_congr rfl fun q _ => this q, ← Finset.mul_sum, ih, Nat.factorial_succ]

/-- index of the matrix entries of all irreps -/
abbrev Entry (n : Nat) := Σ p : Pt n, Wd n p.1 × Wd n p.1

theorem card_Entry (n : Nat) : Fintype.card (Entry n) = Fintype.card (Equiv.Perm (Fin n)) := by
  rw [Fintype.card_sigma, Fintype.card_perm, Fintype.card_fin, ← sum_sq n]
  refine Finset.sum_congr rfl fun p _ => ?_
  rw [Fintype.card_prod, card_Wd p.2]
  rfl

noncomputable def entryM (n : Nat) : Matrix (Entry n) (Equiv.Perm (Fin n)) ℝ :=
  fun x σ => rho x.1.2 σ x.2.1 x.2.2

noncomputable def entryN (n : Nat) : Matrix (Equiv.Perm (Fin n)) (Entry n) ℝ :=
  fun σ x => (dimW n x.1.1 : ℝ) / n ! * rho x.1.2 σ x.2.1 x.2.2

open Classical in
theorem entryM_mul (n : Nat) : entryM n * entryN n = 1 := by
  ext ⟨p, a, b⟩ ⟨q, c, d⟩
  rw [Matrix.mul_apply]
  unfold entryM entryN
  simp only
  by_cases h : p = q
  · subst h
    have hd : (dimW n p.1 : ℝ) ≠ 0 := by exact_mod_cast (dimW_pos p.2).ne'
    have hn : (n ! : ℝ) ≠ 0 := by exact_mod_cast (Nat.factorial_pos n).ne'
    have : ∀ σ : Equiv.Perm (Fin n), rho p.2 σ a b * ((dimW n p.1 : ℝ) / n ! * rho p.2 σ c d) =
        (dimW n p.1 : ℝ) / n ! * (rho p.2 σ a b * rho p.2 σ c d) := fun σ => by ring
    rw [Finset.sum_congr rfl fun σ _ => this σ, ← Finset.mul_sum, orthogonality_eq, Matrix.one_apply]
    have hc : (Fintype.card (Wd n p.1) : ℝ) = dimW n p.1 := by rw [card_Wd p.2]; rfl
    by_cases e : a = c ∧ b = d
    · obtain ⟨rfl, rfl⟩ := e
      rw [if_pos ⟨rfl, rfl⟩, if_pos rfl, hc]
      field_simp
    · rw [if_neg e, if_neg, mul_zero]
      intro e'
      apply e
      simpa using e'
  · have : ∀ σ : Equiv.Perm (Fin n), rho p.2 σ a b * ((dimW n q.1 : ℝ) / n ! * rho q.2 σ c d) =
        (dimW n q.1 : ℝ) / n ! * (rho p.2 σ a b * rho q.2 σ c d) := fun σ => by ring
    rw [Finset.sum_congr rfl fun σ _ => this σ, ← Finset.mul_sum,
      orthogonality_ne p.2 q.2 (fun e => h (Subtype.ext e)), mul_zero, Matrix.one_apply_ne]
    intro e
    exact h (congrArg Sigma.fst e)

open Classical in
theorem entryN_mul (n : Nat) : entryN n * entryM n = 1 :=
  (Matrix.mul_eq_one_comm_of_card_eq (R := ℝ) (eq := card_Entry n)).1 (entryM_mul n)

open Classical in
/-- completeness of the matrix entries -/
theorem completeness (n : Nat) (σ τ : Equiv.Perm (Fin n)) :
    (∑ p : Pt n, (dimW n p.1 : ℝ) / n ! * ∑ a, ∑ b, rho p.2 σ a b * rho p.2 τ a b) = if σ = τ then 1 else 0 := by
  have := congrFun (congrFun (entryN_mul n) σ) τ
  rw [Matrix.one_apply, Matrix.mul_apply, Fintype.sum_sigma] at this
  rw [← this]
  refine Finset.sum_congr rfl fun p _ => ?_
  rw [Fintype.sum_prod_type, Finset.mul_sum]
  refine Finset.sum_congr rfl fun a _ => ?_
  rw [Finset.mul_sum]
  refine Finset.sum_congr rfl fun b _ => ?_
  unfold entryM entryN
  ring

theorem trace_rho (n : Nat) {p : List Nat} (hp : IsPartition n p) (σ τ : Equiv.Perm (Fin n)) :
    (∑ a, ∑ b, rho hp σ a b * rho hp τ a b) = Matrix.trace (rho hp (σ * τ⁻¹)) := by
  rw [map_mul, rho_inv]
  simp only [Matrix.trace, Matrix.diag_apply, Matrix.mul_apply, Matrix.transpose_apply]

open Classical in
theorem completeness_trace (n : Nat) (σ : Equiv.Perm (Fin n)) :
    (∑ p : Pt n, (dimW n p.1 : ℝ) * Matrix.trace (rho p.2 σ)) = if σ = 1 then (n ! : ℝ) else 0 := by
  have h := completeness n σ 1
  have hn : (n ! : ℝ) ≠ 0 := by exact_mod_cast (Nat.factorial_pos n).ne'
  have e : ∀ p : Pt n, (dimW n p.1 : ℝ) / n ! * (∑ a, ∑ b, rho p.2 σ a b * rho p.2 1 a b) =
      (dimW n p.1 : ℝ) * Matrix.trace (rho p.2 σ) / n ! := by
    intro p
    rw [trace_rho, inv_one, mul_one]; ring
  rw [Finset.sum_congr rfl fun p _ => e p, ← Finset.sum_div, div_eq_iff hn] at h
  rw [h]
  split_ifs <;> simp

end Snob
