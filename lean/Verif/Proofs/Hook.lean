import Mathlib.LinearAlgebra.Lagrange
import Verif.Proofs.Complete

/-! # The hook length formula -/

namespace Snob

open IP Polynomial
open scoped Nat

/-! ## An identity for rational functions -/

section Shift

variable {ι : Type*} [DecidableEq ι] (s : Finset ι) (a : ι → ℝ)

theorem prodX_coeff_gt (m : Nat) (hm : s.card < m) : (∏ j ∈ s, (X - C (a j))).coeff m = 0 := by
  apply coeff_eq_zero_of_natDegree_lt
  rwa [natDegree_finsetProd_X_sub_C_eq_card]

theorem prodX_coeff_top : (∏ j ∈ s, (X - C (a j))).coeff s.card = 1 := by
  have := monic_prod_of_monic s (fun j => X - C (a j)) fun j _ => monic_X_sub_C (a j)
  rw [Monic, leadingCoeff, natDegree_finsetProd_X_sub_C_eq_card] at this
  exact this

theorem prodX_coeff_one : ((∏ j ∈ s, (X - C (a j))) * X).coeff s.card = -∑ j ∈ s, a j := by
  induction s using Finset.induction_on with
  | empty => simp
  | insert i s hi ih =>
    rw [Finset.prod_insert hi, Finset.sum_insert hi, Finset.card_insert_of_notMem hi,
      show (X - C (a i)) * (∏ j ∈ s, (X - C (a j))) * X = ((∏ j ∈ s, (X - C (a j))) * X) * X - C (a i) * (∏ j ∈ s, (X - C (a j))) * X by ring,
      coeff_sub, coeff_mul_X, coeff_mul_X, coeff_C_mul, ih, prodX_coeff_top]
    ring

theorem prodX_coeff_two : ((∏ j ∈ s, (X - C (a j))) * X * X).coeff s.card = ((∑ j ∈ s, a j) ^ 2 - ∑ j ∈ s, a j ^ 2) / 2 := by
  induction s using Finset.induction_on with
  | empty => simp
  | insert i s hi ih =>
    rw [Finset.prod_insert hi, Finset.sum_insert hi, Finset.sum_insert hi, Finset.card_insert_of_notMem hi,
      show (X - C (a i)) * (∏ j ∈ s, (X - C (a j))) * X * X =
        ((∏ j ∈ s, (X - C (a j))) * X * X) * X - C (a i) * ((∏ j ∈ s, (X - C (a j))) * X) * X by ring,
      coeff_sub, coeff_mul_X, coeff_mul_X, coeff_C_mul, ih, prodX_coeff_one]
    ring

theorem sum_shift (x : ι → ℝ) (hx : Set.InjOn x s) :
    ∑ i ∈ s, x i * (∏ j ∈ s.erase i, (x i - 1 - x j)) / ∏ j ∈ s.erase i, (x i - x j) =
      ∑ i ∈ s, x i - (s.card : ℝ) * (s.card - 1) / 2 := by
  rcases s.eq_empty_or_nonempty with rfl | hne
  · simp
  set k := s.card with hk
  have hk0 : 0 < k := Finset.card_pos.2 hne
  set Q : ℝ[X] := ∏ j ∈ s, (X - C (x j)) with hQ
  set P : ℝ[X] := ∏ j ∈ s, (X - C (x j + 1)) with hP
  let f : ℝ[X] := Q * X - P * X - C (k : ℝ) * Q
  have hsum1 : ∑ j ∈ s, (x j + 1) = ∑ j ∈ s, x j + k := by rw [Finset.sum_add_distrib]; simp [hk]
  have hsum2 : ∑ j ∈ s, (x j + 1) ^ 2 = ∑ j ∈ s, x j ^ 2 + 2 * ∑ j ∈ s, x j + k := by
    rw [Finset.sum_congr rfl fun j _ => (by ring : (x j + 1) ^ 2 = x j ^ 2 + 2 * x j + 1), Finset.sum_add_distrib,
      Finset.sum_add_distrib, Finset.mul_sum]
    simp [hk]
  have hdeg : f.degree < (s.card : WithBot ℕ) := by
    rw [degree_lt_iff_coeff_zero]
    intro m hm
    rcases hm.eq_or_lt with rfl | hm
    · simp only [f, coeff_sub, coeff_C_mul, prodX_coeff_one, prodX_coeff_top, hQ, hP]
      rw [hsum1]; ring
    · obtain ⟨m, rfl⟩ : ∃ m', m = m' + 1 := ⟨m - 1, by omega⟩
      simp only [f, coeff_sub, coeff_C_mul, coeff_mul_X]
      rcases (Nat.lt_succ_iff.1 hm).eq_or_lt with rfl | hm'
      · rw [hQ, hP, prodX_coeff_top, prodX_coeff_top, prodX_coeff_gt _ _ _ (by omega)]; ring
      · rw [hQ, hP, prodX_coeff_gt _ _ _ (by omega), prodX_coeff_gt _ _ _ (by omega), prodX_coeff_gt _ _ _ (by omega)]; ring
  have hc := Lagrange.coeff_eq_sum hx hdeg
  have hl : f.coeff (s.card - 1) = ∑ i ∈ s, x i - (k : ℝ) * (k - 1) / 2 := by
    have e : f.coeff (s.card - 1) = (f * X).coeff s.card := by
      conv_rhs => rw [show s.card = (s.card - 1) + 1 by omega, coeff_mul_X]
    rw [e, show f * X = Q * X * X - P * X * X - C (k : ℝ) * (Q * X) by simp only [f]; ring, coeff_sub, coeff_sub, coeff_C_mul, hQ, hP,
      prodX_coeff_two, prodX_coeff_two, prodX_coeff_one, hsum1, hsum2]
    ring
  rw [← hl, hc]
  refine Finset.sum_congr rfl fun i hi => ?_
  congr 1
  have hQ0 : Q.eval (x i) = 0 := by
    rw [hQ, eval_prod, Finset.prod_eq_zero hi]; simp
  have hPe : P.eval (x i) = -∏ j ∈ s.erase i, (x i - 1 - x j) := by
    rw [hP, eval_prod, ← Finset.mul_prod_erase s _ hi]
    have : ∀ j, eval (x i) (X - C (x j + 1)) = x i - 1 - x j := fun j => by simp; ring
    simp only [this]; ring
  simp only [f, eval_sub, eval_mul, eval_X, eval_C, hQ0, hPe]
  ring

end Shift

/-! ## Products of differences -/

/-- the product of the differences of the first `K` values -/
def vdm (f : Nat → ℝ) : Nat → ℝ
  | 0 => 1
  | K + 1 => vdm f K * ∏ j ∈ Finset.range K, (f j - f K)

theorem vdm_congr {f g : Nat → ℝ} {K : Nat} (h : ∀ i < K, ∀ j < K, f i - f j = g i - g j) : vdm f K = vdm g K := by
  induction K with
  | zero => rfl
  | succ K ih =>
    rw [vdm, vdm, ih fun i hi j hj => h i (by omega) j (by omega)]
    congr 1
    exact Finset.prod_congr rfl fun j hj => h j (by rw [Finset.mem_range] at hj; omega) K (by omega)

/-- changing one value -/
theorem vdm_update {f g : Nat → ℝ} {K i : Nat} (hi : i < K) (h : ∀ j < K, j ≠ i → g j = f j) :
    vdm g K * ∏ j ∈ (Finset.range K).erase i, (f i - f j) = vdm f K * ∏ j ∈ (Finset.range K).erase i, (g i - f j) := by
  induction K with
  | zero => omega
  | succ K ih =>
    rw [vdm, vdm]
    by_cases e : i = K
    · subst e
      have e1 : (Finset.range (i + 1)).erase i = Finset.range i := by
        rw [Finset.range_add_one, Finset.erase_insert (by simp)]
      have e2 : vdm g i = vdm f i := vdm_congr fun a ha b hb => by rw [h a (by omega) (by omega), h b (by omega) (by omega)]
      rw [e1, e2, mul_assoc, mul_assoc, ← Finset.prod_mul_distrib, ← Finset.prod_mul_distrib]
      congr 1
      refine Finset.prod_congr rfl fun j hj => ?_
      rw [Finset.mem_range] at hj
      rw [h j (by omega) (by omega)]; ring
    · have hiK : i < K := by omega
      have e1 : (Finset.range (K + 1)).erase i = insert K ((Finset.range K).erase i) := by
        rw [Finset.range_add_one, Finset.erase_insert_of_ne (Ne.symm e)]
      have hK : K ∉ (Finset.range K).erase i := by simp
      rw [e1, Finset.prod_insert hK, Finset.prod_insert hK, ← Finset.mul_prod_erase _ _ (Finset.mem_range.2 hiK),
        ← Finset.mul_prod_erase _ (fun j => f j - f K) (Finset.mem_range.2 hiK),
        Finset.prod_congr (g := fun j => f j - f K) (s₂ := (Finset.range K).erase i) rfl (fun j hj => by
          obtain ⟨h1, h2⟩ := Finset.mem_erase.1 hj
          rw [Finset.mem_range] at h2
          rw [h j (by omega) h1, h K (by omega) (Ne.symm e)]), h K (by omega) (Ne.symm e)]
      have := ih hiK fun j hj => h j (by omega)
      linear_combination (g i - f K) * (f i - f K) * (∏ j ∈ (Finset.range K).erase i, (f j - f K)) * this

theorem vdm_succ' (f : Nat → ℝ) (K : Nat) :
    vdm f (K + 1) = (∏ j ∈ Finset.range K, (f 0 - f (j + 1))) * vdm (fun i => f (i + 1)) K := by
  induction K with
  | zero => simp [vdm]
  | succ K ih =>
    rw [vdm, ih, Finset.prod_range_succ', Finset.prod_range_succ (fun j => f 0 - f (j + 1)), vdm]
    ring

/-! ## The number of words -/

/-- the shifted rows -/
def bsh (K : Nat) (p : List Nat) (i : Nat) : Nat := row p i + (K - 1 - i)

theorem vdm_bsh_zero (K : Nat) : vdm (fun i => ((bsh K [] i : Nat) : ℝ)) K = ∏ i ∈ Finset.range K, ((bsh K [] i)! : ℝ) := by
  have e1 : vdm (fun i => ((bsh K [] i : Nat) : ℝ)) K = vdm (fun i => -(i : ℝ)) K := vdm_congr fun i hi j hj => by
    simp only [bsh, row_of_ge (p := []) (Nat.zero_le _), zero_add]
    have h1 : ((K - 1 - i : Nat) : ℝ) = K - 1 - i := by rw [Nat.cast_sub (by omega), Nat.cast_sub (by omega)]; simp
    have h2 : ((K - 1 - j : Nat) : ℝ) = K - 1 - j := by rw [Nat.cast_sub (by omega), Nat.cast_sub (by omega)]; simp
    rw [h1, h2]; ring
  have e2 : ∏ i ∈ Finset.range K, ((bsh K [] i)! : ℝ) = ∏ i ∈ Finset.range K, (i ! : ℝ) := by
    rw [← Finset.prod_range_reflect]
    refine Finset.prod_congr rfl fun i hi => ?_
    rw [Finset.mem_range] at hi
    have : bsh K [] (K - 1 - i) = i := by
      simp only [bsh, row_of_ge (p := []) (Nat.zero_le _)]; omega
    rw [this]
  rw [e1, e2]
  clear e1 e2
  induction K with
  | zero => simp [vdm]
  | succ K ih =>
    rw [vdm, ih, Finset.prod_range_succ]
    congr 1
    rw [← Finset.prod_range_reflect, ← Finset.prod_range_add_one_eq_factorial]
    push_cast
    refine Finset.prod_congr rfl fun i hi => ?_
    rw [Finset.mem_range] at hi
    rw [Nat.cast_sub (by omega), Nat.cast_sub (by omega)]
    push_cast; ring

theorem sum_bsh {n K : Nat} {p : List Nat} (hp : IsPartition n p) (hK : p.length ≤ K) :
    ∑ i ∈ Finset.range K, ((bsh K p i : Nat) : ℝ) = n + (K : ℝ) * (K - 1) / 2 := by
  have h1 : ∑ i ∈ Finset.range K, row p i = n := by rw [← hp.sum, sum_eq_sum_row p K hK, Finset.sum_range, ← List.sum_ofFn, List.ofFn_eq_map, ← List.map_coe_finRange_eq_range, List.map_map]; rfl
  have h2 : ∑ i ∈ Finset.range K, (K - 1 - i) = ∑ i ∈ Finset.range K, i := Finset.sum_range_reflect (fun i => i) K
  have h3 : ((∑ i ∈ Finset.range K, i : Nat) : ℝ) * 2 = K * (K - 1) := by
    have := Finset.sum_range_id_mul_two K
    rcases K with _ | K
    · simp
    · have h : (((∑ i ∈ Finset.range (K + 1), i) * 2 : Nat) : ℝ) = ((K + 1) * (K + 1 - 1) : Nat) := by rw [this]
      push_cast at h ⊢
      simpa using h
  have : ∑ i ∈ Finset.range K, bsh K p i = n + ∑ i ∈ Finset.range K, i := by
    unfold bsh
    rw [Finset.sum_add_distrib, h1, h2]
  rw [← Nat.cast_sum, this, Nat.cast_add]
  linarith

theorem sum_subs_range {K : Nat} {p : List Nat} (hK : p.length ≤ K) (F : List Nat → ℝ) :
    ((subs p).map F).sum = ∑ i ∈ Finset.range K, if row p (i + 1) < row p i then F (dropZeroLast (p.set i (row p i - 1))) else 0 := by
  have h1 : ∀ c, (((List.range c).reverse.filter (fun i => decide (row p (i + 1) < row p i))).map
      (fun i => F (dropZeroLast (p.set i (row p i - 1))))).sum =
      ∑ i ∈ Finset.range c, if row p (i + 1) < row p i then F (dropZeroLast (p.set i (row p i - 1))) else 0 := by
    intro c
    induction c with
    | zero => simp
    | succ c ih =>
      rw [List.range_succ, List.reverse_append, List.reverse_singleton, List.singleton_append, List.filter_cons, Finset.sum_range_succ, ← ih]
      by_cases h : row p (c + 1) < row p c
      · simp [h]; ring
      · simp [h]
  unfold subs
  rw [List.map_map]
  have h2 := h1 p.length
  rw [show (F ∘ fun i => dropZeroLast (p.set i (row p i - 1))) = fun i => F (dropZeroLast (p.set i (row p i - 1))) from rfl, h2]
  refine Finset.sum_subset (fun i hi => by rw [Finset.mem_range] at hi ⊢; omega) fun i _ hi => ?_
  rw [Finset.mem_range, not_lt] at hi
  rw [if_neg]
  rw [row_of_ge hi]; omega

theorem frobenius {n : Nat} {p : List Nat} (hp : IsPartition n p) {K : Nat} (hK : p.length ≤ K) :
    (dimW n p : ℝ) * ∏ i ∈ Finset.range K, ((bsh K p i)! : ℝ) = n ! * vdm (fun i => ((bsh K p i : Nat) : ℝ)) K := by
  induction n generalizing p with
  | zero =>
    have : p = [] := by
      cases p with
      | nil => rfl
      | cons x p => have h1 := hp.sum; have h2 := hp.pos x (by simp); simp at h1; omega
    subst this
    rw [vdm_bsh_zero]
    simp [dimW, words]
  | succ n ih =>
    have hanti : ∀ i j, i < j → j < K → bsh K p j < bsh K p i := by
      intro i j hij hj
      have := row_anti hp.sorted hij.le
      unfold bsh; omega
    have hinj : Set.InjOn (fun i => ((bsh K p i : Nat) : ℝ)) (Finset.range K) := by
      intro i hi j hj h
      simp only [Finset.coe_range, Set.mem_Iio] at hi hj
      have h' : bsh K p i = bsh K p j := Nat.cast_injective (R := ℝ) h
      rcases lt_trichotomy i j with h1 | h1 | h1
      · have := hanti i j h1 hj; omega
      · exact h1
      · have := hanti j i h1 hi; omega
    have hne : ∀ i < K, ∏ j ∈ (Finset.range K).erase i, (((bsh K p i : Nat) : ℝ) - (bsh K p j : Nat)) ≠ 0 := by
      intro i hi
      rw [Finset.prod_ne_zero_iff]
      intro j hj
      obtain ⟨h1, h2⟩ := Finset.mem_erase.1 hj
      rw [sub_ne_zero]
      exact fun h => h1 (hinj (by simpa using h2) (by simpa using hi) h.symm)
    have hterm : ∀ i ∈ Finset.range K, (if row p (i + 1) < row p i then (dimW n (dropZeroLast (p.set i (row p i - 1))) : ℝ) else 0) *
        ∏ i ∈ Finset.range K, ((bsh K p i)! : ℝ) = n ! * vdm (fun i => ((bsh K p i : Nat) : ℝ)) K *
          (((bsh K p i : Nat) : ℝ) * (∏ j ∈ (Finset.range K).erase i, (((bsh K p i : Nat) : ℝ) - 1 - (bsh K p j : Nat))) /
            ∏ j ∈ (Finset.range K).erase i, (((bsh K p i : Nat) : ℝ) - (bsh K p j : Nat))) := by
      intro i hi
      have hiK := Finset.mem_range.1 hi
      by_cases hr : row p (i + 1) < row p i
      · rw [if_pos hr]
        obtain ⟨q, hq1, hq, hb⟩ := isPartition_remove hp (r := i) hr
        have hil : i < p.length := by
          by_contra hc
          rw [row_of_ge (by omega : p.length ≤ i)] at hr; omega
        rw [remove_eq hil (by omega)] at hq1
        have hq' : dropZeroLast (p.set i (row p i - 1)) = q := Option.some.inj hq1
        rw [hq']
        have hql : q.length ≤ K := by
          by_contra hc
          have h1 := (row_pos_iff hq K).2 (by omega)
          have h2 := hb K
          rw [row_of_ge hK] at h2; omega
        have hsi : bsh K p i = bsh K q i + 1 := by
          unfold bsh; have := hb i; rw [if_pos rfl] at this; omega
        have hsj : ∀ j, j ≠ i → bsh K p j = bsh K q j := by
          intro j hj; unfold bsh; have := hb j; rw [if_neg hj] at this; omega
        have h1 := ih hq hql
        have h2 : ∏ j ∈ Finset.range K, ((bsh K p j)! : ℝ) = (bsh K p i : Nat) * ∏ j ∈ Finset.range K, ((bsh K q j)! : ℝ) := by
          rw [← Finset.mul_prod_erase _ _ hi, ← Finset.mul_prod_erase _ (fun j => ((bsh K q j)! : ℝ)) hi, ← mul_assoc]
          congr 1
          · rw [hsi, Nat.factorial_succ]; push_cast; ring
          · exact Finset.prod_congr rfl fun j hj => by rw [hsj j (Finset.mem_erase.1 hj).1]
        have h3 := vdm_update (f := fun i => ((bsh K p i : Nat) : ℝ)) (g := fun i => ((bsh K q i : Nat) : ℝ)) hiK
          (fun j _ hj => by simp only [hsj j hj])
        have h4 : (((bsh K q i : Nat) : ℝ)) = (bsh K p i : Nat) - 1 := by rw [hsi]; push_cast; ring
        simp only [h4] at h3
        rw [h2, mul_div_assoc', eq_div_iff (hne i hiK)]
        linear_combination ((bsh K p i : Nat) : ℝ) * (∏ j ∈ (Finset.range K).erase i, (((bsh K p i : Nat) : ℝ) - (bsh K p j : Nat))) * h1 +
          ((bsh K p i : Nat) : ℝ) * (n ! : ℝ) * h3
      · rw [if_neg hr, zero_mul]
        symm
        have hanti' : row p (i + 1) ≤ row p i := row_anti hp.sorted (Nat.le_succ i)
        by_cases hl : i + 1 < K
        · have : ∏ j ∈ (Finset.range K).erase i, (((bsh K p i : Nat) : ℝ) - 1 - (bsh K p j : Nat)) = 0 := by
            refine Finset.prod_eq_zero (i := i + 1) (by simp [hl]) ?_
            have : bsh K p i = bsh K p (i + 1) + 1 := by unfold bsh; omega
            rw [this]; push_cast; ring
          rw [this]; simp
        · have h1 : row p (i + 1) = 0 := row_of_ge (by omega)
          have : bsh K p i = 0 := by unfold bsh; omega
          rw [this]; simp
    have hd : (dimW (n + 1) p : ℝ) = ∑ i ∈ Finset.range K, if row p (i + 1) < row p i then
        (dimW n (dropZeroLast (p.set i (row p i - 1))) : ℝ) else 0 := by
      rw [dimW_succ hp, ← sum_subs hp (dimW n), ← sum_subs_range hK fun q => (dimW n q : ℝ), Nat.cast_list_sum, List.map_map]
      rfl
    rw [hd, Finset.sum_mul, Finset.sum_congr rfl hterm, ← Finset.mul_sum,
      sum_shift (Finset.range K) (fun i => ((bsh K p i : Nat) : ℝ)) hinj, sum_bsh hp hK, Finset.card_range, Nat.factorial_succ]
    push_cast; ring

/-! ## Hooks -/

/-- the hook lengths of the boxes of the first row, the rows under it being `xs` -/
def rowHooks (x : Nat) (xs : List Nat) : List Nat := (List.range' 1 x).map fun c => (x - c) + below xs c + 1

/-- the hook lengths row after row -/
def hooks : List Nat → List Nat
  | [] => []
  | x :: xs => rowHooks x xs ++ hooks xs

theorem hookLoop_eq (p : List Nat) (res : Nat) : hookLoop p res = (hooks p).foldl (· / ·) res := by
  induction p generalizing res with
  | nil => rfl
  | cons x xs ih =>
    rw [hookLoop, hooks, List.foldl_append, ih]
    congr 1
    unfold hookRow rowHooks
    rw [List.foldl_map]

theorem foldl_div (l : List Nat) (a : Nat) : l.foldl (· / ·) a = a / l.prod := by
  induction l generalizing a with
  | nil => simp
  | cons x l ih => rw [List.foldl_cons, ih, List.prod_cons, Nat.div_div_eq_div_mul]

theorem below_eq (rows : List Nat) (c : Nat) : below rows c = (rows.map fun x => if c ≤ x then 1 else 0).sum := by
  unfold below
  have : ∀ (l : List Nat) (b : Nat), l.foldl (fun b x => b + (if c ≤ x then 1 else 0)) b = b + (l.map fun x => if c ≤ x then 1 else 0).sum := by
    intro l
    induction l with
    | nil => simp
    | cons x l ih => intro b; rw [List.foldl_cons, ih, List.map_cons, List.sum_cons]; omega
  rw [this]; simp

theorem below_zero {rows : List Nat} {c : Nat} (h : ∀ x ∈ rows, x < c) : below rows c = 0 := by
  rw [below_eq]
  refine List.sum_eq_zero fun y hy => ?_
  obtain ⟨x, hx, rfl⟩ := List.mem_map.1 hy
  rw [if_neg (by have := h x hx; omega)]

theorem rowHooks_prod (x : Nat) (xs : List Nat) : (rowHooks x xs).prod = ∏ c ∈ Finset.range x, ((x - (c + 1)) + below xs (c + 1) + 1) := by
  unfold rowHooks
  rw [List.range'_eq_map_range, List.map_map, Finset.prod_range]
  rw [← List.prod_ofFn]
  congr 1
  apply List.ext_getElem
  · simp
  · intro i h1 h2
    simp [Nat.add_comm]

/-- the hooks of the columns beyond all rows below -/
theorem prod_free (x y : Nat) (h : y ≤ x) : ∏ c ∈ Finset.Ico y x, ((x - (c + 1)) + 1) = (x - y)! := by
  rw [Finset.prod_Ico_eq_prod_range, ← Finset.prod_range_reflect, ← Finset.prod_range_add_one_eq_factorial]
  refine Finset.prod_congr rfl fun i hi => ?_
  rw [Finset.mem_range] at hi
  omega

theorem row_hooks (xs : List Nat) : ∀ x, (∀ y ∈ xs, y ≤ x) → xs.Pairwise (fun a b => b ≤ a) →
    (rowHooks x xs).prod * ∏ j ∈ Finset.range xs.length, (x - row xs j + j + 1) = (x + xs.length)! := by
  induction xs with
  | nil =>
    intro x _ _
    rw [rowHooks_prod]
    have := prod_free x 0 (Nat.zero_le _)
    rw [Finset.range_eq_Ico]
    simpa [below] using this
  | cons y ys ih =>
    intro x hx hs
    obtain ⟨hy, hys⟩ := List.pairwise_cons.1 hs
    have hyx := hx y (by simp)
    have h1 := ih (x + 1) (fun z hz => by have := hy z hz; omega) hys
    rw [rowHooks_prod] at h1 ⊢
    have hfree : ∀ c ∈ Finset.Ico y (x + 1), below ys (c + 1) = 0 := fun c hc => below_zero fun z hz => by
      have := hy z hz; have := (Finset.mem_Ico.1 hc).1; omega
    rw [Finset.range_eq_Ico, ← Finset.prod_Ico_consecutive _ (Nat.zero_le y) (by omega : y ≤ x + 1),
      Finset.prod_congr (rfl : Finset.Ico y (x + 1) = _) (fun c hc => by rw [hfree c hc, Nat.add_zero]), prod_free (x + 1) y (by omega)] at h1
    rw [Finset.range_eq_Ico (a := x), ← Finset.prod_Ico_consecutive _ (Nat.zero_le y) hyx,
      Finset.prod_congr (rfl : Finset.Ico y x = _) (g := fun c => (x - (c + 1)) + 1) (fun c hc => by
        rw [below_zero, Nat.add_zero]
        intro z hz
        have h2 := (Finset.mem_Ico.1 hc).1
        rcases List.mem_cons.1 hz with rfl | hz
        · omega
        · have := hy z hz; omega), prod_free x y hyx, List.length_cons, Finset.prod_range_succ',
      show x + (ys.length + 1) = x + 1 + ys.length by omega, ← h1]
    have e1 : ∏ c ∈ Finset.Ico 0 y, ((x - (c + 1)) + below (y :: ys) (c + 1) + 1) = ∏ c ∈ Finset.Ico 0 y, ((x + 1 - (c + 1)) + below ys (c + 1) + 1) := by
      refine Finset.prod_congr rfl fun c hc => ?_
      have := (Finset.mem_Ico.1 hc).2
      rw [below_eq, below_eq, List.map_cons, List.sum_cons, if_pos (by omega)]
      omega
    have e2 : ∏ j ∈ Finset.range ys.length, (x - row (y :: ys) (j + 1) + (j + 1) + 1) = ∏ j ∈ Finset.range ys.length, (x + 1 - row ys j + j + 1) := by
      refine Finset.prod_congr rfl fun j hj => ?_
      have h2 : row (y :: ys) (j + 1) = row ys j := rfl
      have h3 : row ys j ≤ x := by
        rw [Finset.mem_range] at hj
        rw [row_of_lt hj]
        exact hx _ (by simp)
      rw [h2]; omega
    have e3 : (x + 1 - y)! = (x - y)! * (x - y + 1) := by
      rw [show x + 1 - y = (x - y) + 1 by omega, Nat.factorial_succ, Nat.mul_comm]
    have e4 : row (y :: ys) 0 = y := rfl
    rw [e1, e2, e3, e4]
    ring

theorem hooks_vdm (p : List Nat) (hs : p.Pairwise (fun a b => b ≤ a)) :
    ((hooks p).prod : ℝ) * vdm (fun i => ((bsh p.length p i : Nat) : ℝ)) p.length = ∏ i ∈ Finset.range p.length, ((bsh p.length p i)! : ℝ) := by
  induction p with
  | nil => simp [hooks, vdm]
  | cons x xs ih =>
    obtain ⟨hx, hs'⟩ := List.pairwise_cons.1 hs
    have h1 := row_hooks xs x hx hs'
    have h0 : bsh (xs.length + 1) (x :: xs) 0 = x + xs.length := by simp [bsh, row]
    have hsucc : ∀ j, bsh (xs.length + 1) (x :: xs) (j + 1) = bsh xs.length xs j := by
      intro j
      have : row (x :: xs) (j + 1) = row xs j := rfl
      unfold bsh; rw [this]; omega
    rw [hooks, List.prod_append, List.length_cons, vdm_succ', Finset.prod_range_succ', h0]
    simp only [hsucc]
    rw [← ih hs', ← h1]
    have e : ∏ j ∈ Finset.range xs.length, (((x + xs.length : Nat) : ℝ) - (bsh xs.length xs j : Nat)) =
        ((∏ j ∈ Finset.range xs.length, (x - row xs j + j + 1) : Nat) : ℝ) := by
      rw [Nat.cast_prod]
      refine Finset.prod_congr rfl fun j hj => ?_
      rw [Finset.mem_range] at hj
      have h3 : row xs j ≤ x := by
        rw [row_of_lt hj]; exact hx _ (by simp)
      rw [← Nat.cast_sub (by unfold bsh; omega)]
      congr 1
      unfold bsh; omega
    rw [e]
    push_cast
    ring

/-- **The hook length formula.** -/
theorem dimW_mul_hooks {n : Nat} {p : List Nat} (hp : IsPartition n p) : dimW n p * (hooks p).prod = n ! := by
  have h1 := frobenius hp (le_refl p.length)
  have h2 := hooks_vdm p hp.sorted
  have h3 : ∏ i ∈ Finset.range p.length, ((bsh p.length p i)! : ℝ) ≠ 0 := by
    rw [Finset.prod_ne_zero_iff]
    intro i _
    exact_mod_cast (Nat.factorial_pos _).ne'
  have h4 : vdm (fun i => ((bsh p.length p i : Nat) : ℝ)) p.length ≠ 0 := by
    intro h; rw [h, mul_zero] at h2; exact h3 h2.symm
  have : ((dimW n p * (hooks p).prod : Nat) : ℝ) = (n ! : ℝ) := by
    rw [← h2] at h1
    rw [Nat.cast_mul]
    have := mul_right_cancel₀ h4 (by linarith : (dimW n p : ℝ) * (hooks p).prod * vdm (fun i => ((bsh p.length p i : Nat) : ℝ)) p.length = n ! * vdm (fun i => ((bsh p.length p i : Nat) : ℝ)) p.length)
    exact this
  exact_mod_cast this

theorem factorial_eq (n : Nat) : IP.factorial n = n ! := by
  induction n with
  | zero => rfl
  | succ n ih => rw [IP.factorial, ih, Nat.factorial_succ]

theorem hooklength_eq {n : Nat} {p : List Nat} (hp : IsPartition n p) : hooklength p = dimW n p := by
  have h := dimW_mul_hooks hp
  have hpos : 0 < (hooks p).prod := Nat.pos_of_ne_zero fun h0 => by
    rw [h0, mul_zero] at h; exact (Nat.factorial_pos n).ne h
  unfold hooklength
  rw [hookLoop_eq, foldl_div, getn_eq, hp.sum, factorial_eq, ← h, Nat.mul_div_cancel _ hpos]

end Snob
