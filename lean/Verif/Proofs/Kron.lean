import Mathlib.RepresentationTheory.Invariants
import Mathlib.LinearAlgebra.Trace
import Mathlib.LinearAlgebra.Matrix.Kronecker
import Verif.Proofs.FFTLift
import Verif.Proofs.Character

/-! # Multiplicities in tensor products of irreps -/

namespace Snob

open IP Snob.Perm
open scoped Nat

/-! ## A word whose first letters lie in row zero -/

/-- the rows of `p`, numbered from `k`, each filled in one go -/
def supW : List Nat → Nat → List Nat
  | [], _ => []
  | a :: p, k => supW p (k + 1) ++ List.replicate a k

theorem lat_replicate (a k : Nat) (u : List Nat) (hu : Lat u) (h : k = 0 ∨ (0 < k ∧ u.count k + a ≤ u.count (k - 1))) :
    Lat (List.replicate a k ++ u) := by
  induction a with
  | zero => simpa using hu
  | succ a ih =>
    rw [List.replicate_succ, List.cons_append]
    refine ⟨ih (by omega), ?_⟩
    rcases h with rfl | ⟨h1, h2⟩
    · exact Or.inl rfl
    · refine Or.inr ⟨h1, ?_⟩
      rw [List.count_append, List.count_append, List.count_replicate_self, List.count_replicate,
        if_neg (by simp; omega)]
      omega

theorem supW_ok (p : List Nat) (k : Nat) (u : List Nat) (hu : Lat u) (hs : p.Pairwise (· ≥ ·))
    (h0 : ∀ j, k ≤ j → u.count j = 0) (hk : k = 0 ∨ (0 < k ∧ ∀ a ∈ p, a ≤ u.count (k - 1))) :
    Lat (supW p k ++ u) ∧ (∀ i, k ≤ i → (supW p k ++ u).count i = row p (i - k)) ∧
      ∀ i, i < k → (supW p k ++ u).count i = u.count i := by
  induction p generalizing k u with
  | nil => exact ⟨hu, fun i hi => by simpa [supW, row] using h0 i hi, fun i _ => rfl⟩
  | cons a p ih =>
    have e : supW (a :: p) k ++ u = supW p (k + 1) ++ (List.replicate a k ++ u) := by rw [supW, List.append_assoc]
    rw [e]
    rw [List.pairwise_cons] at hs
    have hc : ∀ j, (List.replicate a k ++ u).count j = (if k = j then a else 0) + u.count j := by
      intro j
      rw [List.count_append, List.count_replicate]
      congr 1
      by_cases e : k = j <;> simp [e]
    obtain ⟨h1, h2, h3⟩ := ih (k + 1) (List.replicate a k ++ u)
      (lat_replicate a k u hu (hk.imp id fun h => ⟨h.1, by rw [h0 k le_rfl, Nat.zero_add]; exact h.2 a (by simp)⟩)) hs.2
      (fun j hj => by rw [hc, if_neg (by omega), h0 j (by omega)])
      (Or.inr ⟨by omega, fun b hb => by
        rw [Nat.add_sub_cancel, hc, if_pos rfl]
        have := hs.1 b hb
        omega⟩)
    refine ⟨h1, fun i hi => ?_, fun i hi => ?_⟩
    · by_cases e : i = k
      · subst e
        rw [h3 i (by omega), hc, if_pos rfl, h0 i le_rfl, Nat.sub_self]; rfl
      · rw [h2 i (by omega), show i - k = i - (k + 1) + 1 by omega]; rfl
    · rw [h3 i (by omega), hc, if_neg (by omega), Nat.zero_add]

theorem exists_good {n m : Nat} {p : List Nat} (hp : IsPartition n p) (hm : m ≤ row p 0) : ∃ w : Wd n p, goodW m w.1 = true := by
  obtain ⟨h1, h2, -⟩ := supW_ok p 0 [] trivial hp.sorted (by simp) (Or.inl rfl)
  rw [List.append_nil] at h1 h2
  refine ⟨⟨supW p 0, (mem_words hp _).2 ⟨h1, fun i => by rw [h2 i (Nat.zero_le _), Nat.sub_zero]⟩⟩, ?_⟩
  show goodW m (supW p 0) = true
  cases p with
  | nil =>
    have : m = 0 := by simpa [row] using hm
    subst this; exact goodW_zero _
  | cons a p =>
    have hm' : m ≤ a := hm
    unfold goodW
    rw [supW, List.all_eq_true]
    intro x hx
    rw [List.length_append, List.length_replicate, List.drop_append, List.mem_append] at hx
    rcases hx with hx | hx
    · rw [List.drop_eq_nil_of_le (by omega)] at hx
      simp at hx
    · have := List.eq_of_mem_replicate (List.mem_of_mem_drop hx)
      simp [this]

/-! ## Sums over the permutations of the first letters -/

/-- the permutations that move the first `m` letters only -/
def symF (n m : Nat) : Finset (Equiv.Perm (Fin n)) := Finset.univ.filter fun σ => ∀ i : Fin n, m ≤ (i : Nat) → σ i = i

theorem mem_symF {n m : Nat} {σ : Equiv.Perm (Fin n)} : σ ∈ symF n m ↔ ∀ i : Fin n, m ≤ (i : Nat) → σ i = i := by
  simp [symF]

theorem symF_mul {n m : Nat} {σ τ : Equiv.Perm (Fin n)} (h : σ ∈ symF n m) (h' : τ ∈ symF n m) : σ * τ ∈ symF n m := by
  rw [mem_symF] at *
  intro i hi
  rw [Equiv.Perm.mul_apply, h' i hi, h i hi]

theorem symF_inv {n m : Nat} {σ : Equiv.Perm (Fin n)} (h : σ ∈ symF n m) : σ⁻¹ ∈ symF n m := by
  rw [mem_symF] at *
  intro i hi
  rw [Equiv.Perm.inv_eq_iff_eq]; exact (h i hi).symm

theorem sum_symF_mul {n m : Nat} {τ : Equiv.Perm (Fin n)} (h : τ ∈ symF n m) (f : Equiv.Perm (Fin n) → ℝ) :
    ∑ σ ∈ symF n m, f (τ * σ) = ∑ σ ∈ symF n m, f σ := by
  refine Finset.sum_bij' (fun σ _ => τ * σ) (fun σ _ => τ⁻¹ * σ) (fun σ hσ => symF_mul h hσ)
    (fun σ hσ => symF_mul (symF_inv h) hσ) ?_ ?_ fun _ _ => rfl
  · intro σ _; simp
  · intro σ _; simp

theorem sum_symF {n m : Nat} (hm : m ≤ n) (f : Equiv.Perm (Fin n) → ℝ) :
    ∑ σ ∈ symF n m, f σ = ∑ j ∈ Finset.range (m !), f (elem n j) := by
  have hfac := Nat.factorial_le hm
  have key : ∀ e < n !, elem n e ∈ symF n m ↔ e < m ! := by
    intro e he
    have h := coset_iff n m hm 0 e (Nat.factorial_pos n) he
    rw [Nat.zero_div, elem_zero] at h
    rw [mem_symF]
    have h2 : (0 = e / m !) ↔ e < m ! := by
      rw [eq_comm, Nat.div_eq_zero_iff]
      have := Nat.factorial_pos m
      omega
    rw [← h2, h]
    rfl
  symm
  refine Finset.sum_bij (fun j _ => elem n j) (fun j hj => ?_) (fun a ha b hb h => ?_) (fun σ hσ => ?_) fun _ _ => rfl
  · have := Finset.mem_range.1 hj
    exact (key j (by omega)).2 this
  · have ha' := Finset.mem_range.1 ha
    have hb' := Finset.mem_range.1 hb
    have := (elemEquiv n).injective (a₁ := ⟨a, by omega⟩) (a₂ := ⟨b, by omega⟩) h
    exact congrArg Fin.val this
  · obtain ⟨e, he, rfl⟩ := exists_elem n σ
    exact ⟨e, Finset.mem_range.2 ((key e he).1 hσ), rfl⟩

section
variable {n : Nat} {p : List Nat}

theorem sum_symF_bad {m : Nat} (hm : 0 < m) (hn : m ≤ n) (hp : IsPartition n p) (u w : Wd n p) (hw : goodW m w.1 = false) :
    ∑ σ ∈ symF n m, rho hp σ u w = 0 := by
  have h := rho_coset_zero hm n hn p hp 0 (Nat.div_pos (Nat.factorial_le hn) (Nat.factorial_pos _)) u w hw
  simp only [Nat.zero_mul, Nat.zero_add] at h
  rw [← sum_symF hn fun σ => rho hp σ⁻¹ u w] at h
  rw [← h]
  exact Finset.sum_bij' (fun σ _ => σ⁻¹) (fun σ _ => σ⁻¹) (fun σ hσ => symF_inv hσ) (fun σ hσ => symF_inv hσ)
    (by simp) (by simp) (by simp)

theorem sum_symF_good {m : Nat} (hm : 0 < m) (hn : m ≤ n) (hp : IsPartition n p) (u w : Wd n p) (hw : goodW m w.1 = true) :
    ∑ σ ∈ symF n m, rho hp σ u w = if u = w then (m ! : ℝ) else 0 := by
  have e : ∑ σ ∈ symF n m, rho hp σ u w = ∑ σ ∈ symF n m, rho hp σ⁻¹ u w :=
    Finset.sum_bij' (fun σ _ => σ⁻¹) (fun σ _ => σ⁻¹) (fun σ hσ => symF_inv hσ) (fun σ hσ => symF_inv hσ)
      (by simp) (by simp) (by simp)
  rw [e, sum_symF hn fun σ => rho hp σ⁻¹ u w]
  have h : ∀ j ∈ Finset.range (m !), rho hp (elem n j)⁻¹ u w = if u = w then 1 else 0 := by
    intro j hj
    have := rho_coset hm n hn p hp 0 j (Nat.div_pos (Nat.factorial_le hn) (Nat.factorial_pos _)) (Finset.mem_range.1 hj) u w hw
    simp only [Nat.zero_mul, Nat.zero_add] at this
    rw [this, elem_zero, inv_one, map_one, Matrix.one_apply]
  rw [Finset.sum_congr rfl h, Finset.sum_const, Finset.card_range]
  split_ifs <;> simp

/-- the permutations of the first `m` letters add up to zero if row zero is shorter -/
theorem sum_symF_zero {m : Nat} (hm : row p 0 < m) (hn : m ≤ n) (hp : IsPartition n p) :
    ∑ σ ∈ symF n m, rho hp σ = 0 := by
  ext u w
  rw [Matrix.sum_apply, Matrix.zero_apply]
  refine sum_symF_bad (by omega) hn hp u w ?_
  by_contra h
  have h1 : goodW m w.1 = true := by simpa using h
  have := goodW_count h1 (by rw [w.length hp]; exact hn)
  rw [((mem_words hp w.1).1 w.2).2 0] at this
  omega

/-- the trace of that sum is positive if row zero is long enough -/
theorem sum_symF_chi {m : Nat} (h0 : 0 < m) (hm : m ≤ row p 0) (hn : m ≤ n) (hp : IsPartition n p) :
    0 < ∑ σ ∈ symF n m, chi hp σ := by
  unfold chi Matrix.trace
  rw [Finset.sum_comm]
  have e : ∀ w : Wd n p, ∑ σ ∈ symF n m, (rho hp σ).diag w = if goodW m w.1 = true then (m ! : ℝ) else 0 := by
    intro w
    split_ifs with h
    · exact (sum_symF_good h0 hn hp w w h).trans (if_pos rfl)
    · exact sum_symF_bad h0 hn hp w w (by simpa using h)
  rw [Finset.sum_congr rfl fun w _ => e w]
  obtain ⟨w, hw⟩ := exists_good hp hm
  have hf : (0 : ℝ) < m ! := by exact_mod_cast Nat.factorial_pos m
  refine Finset.sum_pos' (fun w _ => ?_) ⟨w, Finset.mem_univ _, ?_⟩
  · split_ifs <;> linarith
  · rw [if_pos hw]; exact hf

/-- averaging a trace over conjugates -/
theorem sum_conj_chi (hp : IsPartition n p) (σ τ : Equiv.Perm (Fin n)) :
    (Fintype.card (Wd n p) : ℝ) * ∑ g, chi hp (σ * (g * τ * g⁻¹)) = n ! * chi hp τ * chi hp σ := by
  obtain ⟨x, hx⟩ := schur_eq hp _ (avg_intertwines hp hp (rho hp τ))
  have h1 : ∑ g, chi hp (σ * (g * τ * g⁻¹)) = x * chi hp σ := by
    have e : ∀ g, chi hp (σ * (g * τ * g⁻¹)) = Matrix.trace (rho hp σ * (rho hp g * rho hp τ * rho hp g⁻¹)) := by
      intro g; unfold chi; rw [map_mul, map_mul, map_mul]
    rw [Finset.sum_congr rfl fun g _ => e g, ← Matrix.trace_sum, ← Matrix.mul_sum]
    have : ∑ g, rho hp g * rho hp τ * rho hp g⁻¹ = avg hp hp (rho hp τ) := rfl
    rw [this, hx, Matrix.mul_smul, Matrix.mul_one, Matrix.trace_smul]; rfl
  have h2 : Matrix.trace (avg hp hp (rho hp τ)) = n ! * chi hp τ := by
    unfold avg
    rw [Matrix.trace_sum]
    have e : ∀ g ∈ (Finset.univ : Finset (Equiv.Perm (Fin n))), Matrix.trace (rho hp g * rho hp τ * rho hp g⁻¹) = chi hp τ := by
      intro g _
      rw [← map_mul, ← map_mul]
      exact chi_conj hp (isConj_iff.2 ⟨g⁻¹, by group⟩)
    rw [Finset.sum_congr rfl e, Finset.sum_const, Finset.card_univ, Fintype.card_perm, Fintype.card_fin, nsmul_eq_mul]
  rw [hx, Matrix.trace_smul, Matrix.trace_one, smul_eq_mul] at h2
  rw [h1, ← mul_assoc, mul_comm _ x, h2]

end

/-! ## The multiplicity of an irrep in a tensor product of two -/

section
variable {n : Nat} {p q r : List Nat}

/-- `g(p,q,r)` -/
noncomputable def kron (hp : IsPartition n p) (hq : IsPartition n q) (hr : IsPartition n r) : ℝ :=
  (∑ σ, chi hp σ * chi hq σ * chi hr σ) / n !

/-- the first rows bound the multiplicities -/
theorem kron_zero (hp : IsPartition n p) (hq : IsPartition n q) (hr : IsPartition n r)
    (h : row r 0 + n < row p 0 + row q 0) (hn : 1 ≤ n) : kron hp hq hr = 0 := by
  classical
  have hpos : ∀ {p : List Nat}, IsPartition n p → 0 < row p 0 ∧ row p 0 ≤ n := by
    intro p hp
    cases p with
    | nil => have := hp.sum; simp at this; omega
    | cons a p =>
      have h1 := hp.pos a (by simp)
      have h2 := hp.sum
      rw [List.sum_cons] at h2
      exact ⟨h1, by show a ≤ n; omega⟩
  obtain ⟨ha0, han⟩ := hpos hp
  obtain ⟨hb0, hbn⟩ := hpos hq
  set a := row p 0 with ha
  set b := row q 0 with hb
  set c := a + b - n with hc
  have hcn : c ≤ n := by omega
  -- the sum over two conjugated subgroups vanishes
  have key : ∀ g k : Equiv.Perm (Fin n), ∑ σ, (∑ α ∈ symF n a, chi hp (σ * (g * α * g⁻¹))) *
      (∑ β ∈ symF n b, chi hq (σ * (k * β * k⁻¹))) * chi hr σ = 0 := by
    intro g k
    -- a subgroup on `c` letters inside both
    obtain ⟨t, ht⟩ : ∃ t : Equiv.Perm (Fin n), ∀ i : Fin n, (i : Nat) < c → ((g⁻¹ (t i) : Fin n) : Nat) < a ∧ ((k⁻¹ (t i) : Fin n) : Nat) < b := by
      let A : Finset (Fin n) := Finset.univ.filter fun x => ((g⁻¹ x : Fin n) : Nat) < a
      let B : Finset (Fin n) := Finset.univ.filter fun x => ((k⁻¹ x : Fin n) : Nat) < b
      have cardlt : ∀ (a : Nat) (g : Equiv.Perm (Fin n)), a ≤ n → (Finset.univ.filter fun x => ((g⁻¹ x : Fin n) : Nat) < a).card = a := by
        intro a g han
        rw [← Finset.card_map g⁻¹.toEmbedding]
        have : ((Finset.univ.filter fun x => ((g⁻¹ x : Fin n) : Nat) < a).map g⁻¹.toEmbedding) =
            Finset.univ.filter fun x : Fin n => (x : Nat) < a := by
          ext x
          simp only [Finset.mem_map, Finset.mem_filter, Finset.mem_univ, true_and, Equiv.coe_toEmbedding]
          constructor
          · rintro ⟨y, hy, rfl⟩; exact hy
          · intro hx; exact ⟨g x, by simpa using hx, by simp⟩
        rw [this, Fin.card_filter_val_lt]
        omega
      have hA : A.card = a := cardlt a g han
      have hB : B.card = b := cardlt b k hbn
      have hAB : c ≤ (A ∩ B).card := by
        have h1 := Finset.card_union_add_card_inter A B
        have h2 := Finset.card_le_univ (A ∪ B)
        rw [Fintype.card_fin] at h2
        omega
      obtain ⟨C, hC, hCc⟩ := Finset.exists_subset_card_eq hAB
      have e1 : Fintype.card {i : Fin n // (i : Nat) < c} = Fintype.card {x : Fin n // x ∈ C} := by
        rw [Fintype.card_coe, hCc, Fintype.card_subtype, Fin.card_filter_val_lt]
        omega
      let e0 := Fintype.equivOfCardEq e1
      refine ⟨e0.extendSubtype, fun i hi => ?_⟩
      have : e0.extendSubtype i ∈ C := e0.extendSubtype_mem i hi
      have h3 := Finset.mem_inter.1 (hC this)
      exact ⟨(Finset.mem_filter.1 h3.1).2, (Finset.mem_filter.1 h3.2).2⟩
    have inside : ∀ (g : Equiv.Perm (Fin n)) (a : Nat), (∀ i : Fin n, (i : Nat) < c → ((g⁻¹ (t i) : Fin n) : Nat) < a) →
        ∀ γ ∈ symF n c, g⁻¹ * (t * γ * t⁻¹) * g ∈ symF n a := by
      intro g a hga γ hγ
      rw [mem_symF] at *
      intro i hi
      have h1 : ¬ ((t⁻¹ (g i) : Fin n) : Nat) < c := by
        intro h2
        have := hga _ h2
        simp at this
        omega
      simp only [Equiv.Perm.mul_apply]
      rw [hγ _ (by omega)]
      simp
    have ing := inside g a fun i hi => (ht i hi).1
    have ink := inside k b fun i hi => (ht i hi).2
    -- shifting the summation variable
    have shift : ∀ γ ∈ symF n c, ∑ σ, (∑ α ∈ symF n a, chi hp (σ * (g * α * g⁻¹))) *
        (∑ β ∈ symF n b, chi hq (σ * (k * β * k⁻¹))) * chi hr σ =
        ∑ σ, (∑ α ∈ symF n a, chi hp (σ * (g * α * g⁻¹))) *
        (∑ β ∈ symF n b, chi hq (σ * (k * β * k⁻¹))) * chi hr (σ * (t * γ * t⁻¹)) := by
      intro γ hγ
      rw [← Equiv.sum_comp (Equiv.mulRight (t * γ * t⁻¹))]
      refine Finset.sum_congr rfl fun σ _ => ?_
      rw [Equiv.coe_mulRight]
      have sw : ∀ {p : List Nat} (hp : IsPartition n p) (g : Equiv.Perm (Fin n)) (a : Nat), (g⁻¹ * (t * γ * t⁻¹) * g ∈ symF n a) →
          ∑ α ∈ symF n a, chi hp (σ * (t * γ * t⁻¹) * (g * α * g⁻¹)) = ∑ α ∈ symF n a, chi hp (σ * (g * α * g⁻¹)) := by
        intro p hp g a hg
        rw [← sum_symF_mul hg fun α => chi hp (σ * (g * α * g⁻¹))]
        refine Finset.sum_congr rfl fun α _ => ?_
        congr 1
        group
      rw [sw hp g a (ing γ hγ), sw hq k b (ink γ hγ)]
    have hz : ∀ σ : Equiv.Perm (Fin n), ∑ γ ∈ symF n c, chi hr (σ * (t * γ * t⁻¹)) = 0 := by
      intro σ
      unfold chi
      have e : ∀ γ ∈ symF n c, Matrix.trace (rho hr (σ * (t * γ * t⁻¹))) = Matrix.trace (rho hr σ * (rho hr t * rho hr γ * rho hr t⁻¹)) := by
        intro γ _; rw [map_mul, map_mul, map_mul]
      rw [Finset.sum_congr rfl e, ← Matrix.trace_sum, ← Matrix.mul_sum, ← Matrix.sum_mul, ← Matrix.mul_sum,
        sum_symF_zero (by omega) hcn hr]
      simp
    have hsum := Finset.sum_congr rfl shift
    rw [Finset.sum_const, Finset.sum_comm] at hsum
    have hcard : (symF n c).card ≠ 0 := by
      rw [Finset.card_ne_zero]
      exact ⟨1, by rw [mem_symF]; intro i _; rfl⟩
    have hrhs : ∑ σ, ∑ γ ∈ symF n c, (∑ α ∈ symF n a, chi hp (σ * (g * α * g⁻¹))) *
        (∑ β ∈ symF n b, chi hq (σ * (k * β * k⁻¹))) * chi hr (σ * (t * γ * t⁻¹)) = 0 := by
      refine Finset.sum_eq_zero fun σ _ => ?_
      rw [← Finset.mul_sum, hz, mul_zero]
    rw [hrhs, smul_eq_zero] at hsum
    exact hsum.resolve_left hcard
  -- averaging over the conjugates
  set dp : ℝ := ((Fintype.card (Wd n p) : ℕ) : ℝ)
  set dq : ℝ := ((Fintype.card (Wd n q) : ℕ) : ℝ)
  set Xp := ∑ α ∈ symF n a, chi hp α with hXp
  set Xq := ∑ α ∈ symF n b, chi hq α with hXq
  have collect : ∀ {p : List Nat} (hp : IsPartition n p) (a : Nat) (σ : Equiv.Perm (Fin n)),
      (Fintype.card (Wd n p) : ℝ) * ∑ g, ∑ α ∈ symF n a, chi hp (σ * (g * α * g⁻¹)) = n ! * (∑ α ∈ symF n a, chi hp α) * chi hp σ := by
    intro p hp a σ
    rw [Finset.sum_comm, Finset.mul_sum, Finset.sum_congr rfl fun α _ => sum_conj_chi hp σ α, Finset.mul_sum, Finset.sum_mul]
  have total : (n ! * Xp) * (n ! * Xq) * ∑ σ, chi hp σ * chi hq σ * chi hr σ = 0 := by
    have e : ∀ σ, (n ! * Xp) * (n ! * Xq) * (chi hp σ * chi hq σ * chi hr σ) =
        dp * dq * ∑ g, ∑ k, (∑ α ∈ symF n a, chi hp (σ * (g * α * g⁻¹))) *
          (∑ β ∈ symF n b, chi hq (σ * (k * β * k⁻¹))) * chi hr σ := by
      intro σ
      have h1 := collect hp a σ
      have h2 := collect hq b σ
      calc (n ! * Xp) * (n ! * Xq) * (chi hp σ * chi hq σ * chi hr σ)
          = (n ! * Xp * chi hp σ) * (n ! * Xq * chi hq σ) * chi hr σ := by ring
        _ = (dp * ∑ g, ∑ α ∈ symF n a, chi hp (σ * (g * α * g⁻¹))) * (dq * ∑ k, ∑ β ∈ symF n b, chi hq (σ * (k * β * k⁻¹))) * chi hr σ := by
            rw [← h1, ← h2]
        _ = dp * dq * (((∑ g, ∑ α ∈ symF n a, chi hp (σ * (g * α * g⁻¹))) * ∑ k, ∑ β ∈ symF n b, chi hq (σ * (k * β * k⁻¹))) * chi hr σ) := by ring
        _ = _ := by
            rw [Finset.sum_mul_sum, Finset.sum_mul]
            congr 1
            refine Finset.sum_congr rfl fun g _ => ?_
            rw [Finset.sum_mul]
    rw [Finset.mul_sum, Finset.sum_congr rfl fun σ _ => e σ, ← Finset.mul_sum, Finset.sum_comm]
    have : ∀ g : Equiv.Perm (Fin n), ∑ σ, ∑ k, (∑ α ∈ symF n a, chi hp (σ * (g * α * g⁻¹))) *
          (∑ β ∈ symF n b, chi hq (σ * (k * β * k⁻¹))) * chi hr σ = 0 := by
      intro g
      rw [Finset.sum_comm]
      exact Finset.sum_eq_zero fun k _ => key g k
    rw [Finset.sum_congr rfl fun g _ => this g]
    simp
  have hf : (n ! : ℝ) ≠ 0 := by exact_mod_cast (Nat.factorial_pos n).ne'
  have h1 : Xp ≠ 0 := (sum_symF_chi ha0 le_rfl han hp).ne'
  have h2 : Xq ≠ 0 := (sum_symF_chi hb0 le_rfl hbn hq).ne'
  have h3 := (mul_eq_zero.1 total).resolve_left (mul_ne_zero (mul_ne_zero hf h1) (mul_ne_zero hf h2))
  unfold kron
  rw [h3, zero_div]

/-- the dimensions add up -/
theorem sum_kron_dim (hp : IsPartition n p) (hq : IsPartition n q) :
    ∑ r : Pt n, kron hp hq r.2 * dimW n r.1 = (dimW n p : ℝ) * dimW n q := by
  classical
  have hf : (n ! : ℝ) ≠ 0 := by exact_mod_cast (Nat.factorial_pos n).ne'
  have e : ∀ r : Pt n, kron hp hq r.2 * dimW n r.1 = (∑ σ, chi hp σ * chi hq σ * (dimW n r.1 * chi r.2 σ)) / n ! := by
    intro r
    unfold kron
    rw [div_mul_eq_mul_div, Finset.sum_mul]
    congr 1
    exact Finset.sum_congr rfl fun σ _ => by ring
  rw [Finset.sum_congr rfl fun r _ => e r, ← Finset.sum_div, Finset.sum_comm]
  have e2 : ∀ σ, ∑ r : Pt n, chi hp σ * chi hq σ * (dimW n r.1 * chi r.2 σ) = if σ = 1 then chi hp 1 * chi hq 1 * n ! else 0 := by
    intro σ
    rw [← Finset.mul_sum]
    have := completeness_trace n σ
    unfold chi
    rw [this]
    split_ifs with h
    · subst h; rfl
    · simp
  rw [Finset.sum_congr rfl fun σ _ => e2 σ, Finset.sum_ite_eq' Finset.univ 1, if_pos (Finset.mem_univ _), mul_div_assoc, div_self hf, mul_one]
  have one : ∀ {p : List Nat} (hp : IsPartition n p), chi hp 1 = dimW n p := by
    intro p hp
    unfold chi
    rw [map_one, Matrix.trace_one, card_Wd hp]; rfl
  rw [one, one]

end

end Snob
