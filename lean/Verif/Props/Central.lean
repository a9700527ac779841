import Verif.Proofs.Branch
import Verif.Props.Rational
import Verif.Props.Classes

/-! # Properties C95, C96: central characters; restriction and induction of characters -/

namespace Snob.Props

open IP
open scoped Nat

variable {n : Nat}

theorem hasCycleType_conj {mu : List Nat} (σ τ : Equiv.Perm (Fin n)) : HasCycleType (τ * σ * τ⁻¹) mu ↔ HasCycleType σ mu := by
  unfold HasCycleType
  rw [Equiv.Perm.cycleType_conj, Equiv.Perm.card_support_conj]

/-- **C95.** The matrices of a class add up to a multiple of the identity. The factor is an integer `z`, and it is the size
of the class times the character divided by the dimension, after every history of calls. -/
theorem C95_class_sum (cs : List Call) (hv : ∀ c ∈ cs, c.Valid) (hn : 1 ≤ n) (p mu : List Nat) (hp : IsPartition n p)
    (hmu : IsPartition n mu) [DecidablePred fun σ : Equiv.Perm (Fin n) => HasCycleType σ mu] :
    ∃ w w' x R k, ∃ z : Int, World.empty.run cs = some w ∧ w.exec (.value p mu) = some (w', .real x) ∧ mkIrrep p = some R ∧
      classSize n mu = some k ∧ (k : ℝ) * x = z * R.d ∧
      ∃ A : Equiv.Perm (Fin n) → Nat → Nat → ℝ, (∀ σ, R.eval (enc σ) = some (A σ)) ∧
        ∀ i j : Fin R.d, ∑ σ ∈ Finset.univ.filter (fun σ : Equiv.Perm (Fin n) => HasCycleType σ mu), A σ i j =
          if i = j then (z : ℝ) else 0 := by
  classical
  obtain rfl := hp.sum
  obtain ⟨w, w', e, e'⟩ := history_exec cs hv (.value p mu) ⟨hn, hp, hmu⟩
  obtain ⟨R, hR, _, h⟩ := exists_repr hn hp
  let f : Equiv.Perm (Fin p.sum) → ℤ := fun σ => if HasCycleType σ mu then 1 else 0
  have hf : ∀ σ τ, f (τ * σ * τ⁻¹) = f σ := fun σ τ => by simp only [f, hasCycleType_conj]
  have hcard : Fintype.card (Wd p.sum p) = R.d := by rw [card_Wd hp, h.d_eq]
  obtain ⟨z, hz⟩ := central_int hp f hf
  have hs : ∑ σ, (f σ : ℝ) * chi hp σ = (ccard p.sum mu : ℝ) * chiVal p.sum p mu := by
    rw [chiVal_eq hp, ccard_eq hmu, ← nsmul_eq_mul, ← Finset.sum_const, Finset.sum_filter]
    refine Finset.sum_congr rfl fun σ _ => ?_
    by_cases hσ : HasCycleType σ mu
    · simp only [f, if_pos hσ, Int.cast_one, one_mul]
      exact chi_class hp hmu hσ (hasCycleType_block hmu)
    · simp only [f, if_neg hσ, Int.cast_zero, zero_mul]
  have hd : (Fintype.card (Wd p.sum p) : ℝ) ≠ 0 := by exact_mod_cast (card_Wd_pos hp).ne'
  choose A hA hA' using h.eval_eq
  refine ⟨w, w', _, R, ccard p.sum mu, z, e, e', hR, classSize_card hn hmu, by rw [← hs, hz, hcard], A, hA, fun i j => ?_⟩
  have hc := class_scalar hp (fun σ => (f σ : ℝ)) fun σ τ => by rw [hf]
  rw [hz, mul_div_cancel_right₀ _ hd] at hc
  have := congrFun (congrFun hc (h.eqv i)) (h.eqv j)
  rw [Matrix.sum_apply, Matrix.smul_apply, Matrix.one_apply, smul_eq_mul] at this
  simp only [h.eqv.injective.eq_iff, mul_ite, mul_one, mul_zero] at this
  rw [← this, Finset.sum_filter]
  refine Finset.sum_congr rfl fun σ _ => ?_
  rw [hA', h.rep_apply, Matrix.smul_apply]
  by_cases hσ : HasCycleType σ mu
  · simp only [f, if_pos hσ, Int.cast_one, one_smul]; rfl
  · simp only [f, if_neg hσ, Int.cast_zero, zero_smul]

/-- **C95.** At the transpositions the factor is the sum of the contents of the diagram: `n(n-1)/2` times the character is
the dimension times the sum of the contents, after every history of calls. -/
theorem C95_transpositions (cs : List Call) (hv : ∀ c ∈ cs, c.Valid) (hn : 2 ≤ n) (p : List Nat) (hp : IsPartition n p) :
    ∃ w w' x R, World.empty.run cs = some w ∧ w.exec (.value p (2 :: List.replicate (n - 2) 1)) = some (w', .real x) ∧
      mkIrrep p = some R ∧ (n * (n - 1) : ℝ) * x = 2 * contentSum p * R.d := by
  obtain rfl := hp.sum
  have hmu : IsPartition p.sum (2 :: List.replicate (p.sum - 2) 1) := by
    refine ⟨?_, ?_, ?_⟩
    · refine List.pairwise_cons.2 ⟨fun a ha => by rw [List.eq_of_mem_replicate ha]; omega, ?_⟩
      exact List.pairwise_replicate.2 (Or.inr (le_refl _))
    · intro x hx
      rcases List.mem_cons.1 hx with h | h
      · omega
      · rw [List.eq_of_mem_replicate h]; omega
    · simp; omega
  obtain ⟨w, w', e, e'⟩ := history_exec cs hv (.value p (2 :: List.replicate (p.sum - 2) 1)) ⟨by omega, hp, hmu⟩
  obtain ⟨R, hR, _, h⟩ := exists_repr (by omega) hp
  refine ⟨w, w', _, R, e, e', hR, ?_⟩
  have hij : (⟨0, by omega⟩ : Fin p.sum) ≠ ⟨1, by omega⟩ := by simp
  have ht := chi_transposition hp hij
  rw [chiVal_eq hp]
  have hcyc : HasCycleType (Equiv.swap (⟨0, by omega⟩ : Fin p.sum) ⟨1, by omega⟩) (2 :: List.replicate (p.sum - 2) 1) := by
    rw [hasCycleType_iff hmu, (Equiv.Perm.isSwap_iff_cycleType).1 ⟨_, _, hij, rfl⟩]
    unfold big
    rw [← Multiset.cons_coe, Multiset.filter_cons_of_pos _ (by omega), Multiset.coe_replicate, Multiset.filter_eq_nil.2]
    · rfl
    · intro a ha; rw [Multiset.eq_of_mem_replicate ha]; omega
  have : chiAt hp (2 :: List.replicate (p.sum - 2) 1) = _ := chi_class hp hmu (hasCycleType_block hmu) hcyc
  rw [this, ht, card_Wd hp, h.d_eq]

/-- the five transpositions classes of `S_4`: the content sums of the diagrams, and the value of the first irrep -/
example : contentSum [4] = 6 ∧ contentSum [3, 1] = 2 ∧ contentSum [2, 2] = 0 ∧ contentSum [1, 1, 1, 1] = -6 := by decide

example : ∃ w w', World.empty.run [] = some w ∧ w.exec (.value [2, 2] [2, 1, 1]) = some (w', .real 0) := by
  obtain ⟨w, w', x, R, e, e', hR, h⟩ := C95_transpositions (n := 4) [] (by simp) (by decide) [2, 2] ⟨by decide, by decide, rfl⟩
  have : contentSum [2, 2] = 0 := by decide
  rw [this] at h
  have hx : x = 0 := by norm_num at h; exact h
  exact ⟨w, w', e, hx ▸ e'⟩

open Classical in
/-- **C96.** Restriction: at a class with a fixed point, the character is the sum of the characters of the diagrams with one
box less at the class without that fixed point. Induction: summed over the diagrams that have one box more than `q`, the
characters give the character of `q` at the class without one fixed point, times the number of fixed points; and they cancel
at the classes without fixed point. After every history of calls. -/
theorem C96_branching (hn : 1 ≤ n) : ∃ (X Y : List Nat → List Nat → ℝ),
    (∀ cs : List Call, (∀ c ∈ cs, c.Valid) → ∃ w, World.empty.run cs = some w ∧
      (∀ p nu, IsPartition (n + 1) p → IsPartition (n + 1) nu → ∃ w', w.exec (.value p nu) = some (w', .real (X p nu))) ∧
      (∀ q mu, IsPartition n q → IsPartition n mu → ∃ w', w.exec (.value q mu) = some (w', .real (Y q mu)))) ∧
    (∀ p mu, IsPartition (n + 1) p → IsPartition n mu →
      X p (mu ++ [1]) = (((partitions n).filter fun q => AddsBox q p).map fun q => Y q mu).sum) ∧
    (∀ q mu, IsPartition n q → IsPartition n mu →
      (((partitions (n + 1)).filter fun p => AddsBox q p).map fun p => X p (mu ++ [1])).sum =
        ((mu ++ [1]).count 1 : ℝ) * Y q mu) ∧
    (∀ q nu, IsPartition n q → IsPartition (n + 1) nu → 1 ∉ nu →
      (((partitions (n + 1)).filter fun p => AddsBox q p).map fun p => X p nu).sum = 0) := by
  have hlist : ∀ {m : Nat} (_ : 1 ≤ m) (P : List Nat → Prop) (f : List Nat → ℝ),
      (((partitions m).filter fun q => P q).map f).sum = ∑ q : Pt m, if P q.1 then f q.1 else 0 := by
    intro m hm P f
    rw [← List.sum_toFinset _ ((partitions_nodup m).filter _), ← Finset.sum_filter]
    symm
    refine Finset.sum_bij (fun q _ => q.1) (fun q hq => ?_) (fun a _ b _ h => Subtype.ext h) (fun q hq => ?_) (fun _ _ => rfl)
    · rw [List.mem_toFinset, List.mem_filter, mem_partitions m hm]
      exact ⟨q.2, by simpa using (Finset.mem_filter.1 hq).2⟩
    · rw [List.mem_toFinset, List.mem_filter, mem_partitions m hm] at hq
      exact ⟨⟨q, hq.1⟩, Finset.mem_filter.2 ⟨Finset.mem_univ _, by simpa using hq.2⟩, rfl⟩
  have hind : ∀ q nu, IsPartition n q → IsPartition (n + 1) nu →
      (((partitions (n + 1)).filter fun p => AddsBox q p).map fun p => chiVal (n + 1) p nu).sum =
        ∑ mu : Pt n, if mu.1 ++ [1] = nu then ((mu.1.count 1 + 1 : Nat) : ℝ) * chiVal n q mu.1 else 0 := by
    intro q nu hq hnu
    have := chiAt_induce hn ⟨q, hq⟩ ⟨nu, hnu⟩
    rw [hlist (by omega) (fun p => AddsBox q p)]
    simp only [chiVal_eq hq]
    rw [← this]
    refine Finset.sum_congr rfl fun p _ => ?_
    rw [chiVal_eq p.2]
  refine ⟨chiVal (n + 1), chiVal n, fun cs hv => ?_, fun p mu hp hmu => ?_, fun q mu hq hmu => ?_, fun q nu hq hnu h1 => ?_⟩
  · obtain ⟨w, e, h, hch⟩ := history cs hv
    refine ⟨w, e, fun p nu hp hnu => ?_, fun q mu hq hmu => ?_⟩
    · obtain ⟨w', e', _⟩ := h.exec hch (.value p nu) ⟨by rw [hp.sum]; omega, by rw [hp.sum]; exact hp, by rw [hp.sum]; exact hnu⟩
      refine ⟨w', e'.trans ?_⟩
      rw [result, hp.sum]
    · obtain ⟨w', e', _⟩ := h.exec hch (.value q mu) ⟨by rw [hq.sum]; omega, by rw [hq.sum]; exact hq, by rw [hq.sum]; exact hmu⟩
      refine ⟨w', e'.trans ?_⟩
      rw [result, hq.sum]
  · rw [hlist hn (fun q => AddsBox q p), chiVal_eq hp, chiAt_branch hn hp hmu]
    refine Finset.sum_congr rfl fun q _ => ?_
    rw [chiVal_eq q.2]
  · rw [hind q _ hq (isPartition_snoc hmu), Finset.sum_eq_single ⟨mu, hmu⟩]
    · rw [if_pos rfl]; simp
    · intro mu' _ hne
      rw [if_neg fun h => hne (Subtype.ext (List.append_left_injective _ h))]
    · simp
  · rw [hind q _ hq hnu]
    refine Finset.sum_eq_zero fun mu _ => if_neg fun h => h1 ?_
    rw [← h]; simp

/-- the diagram `(2,1)` at the transposition class of `S_3`: restricted to `S_2` it is the sum of both characters -/
example : ∃ X Y : List Nat → List Nat → ℝ, X [2, 1] [2, 1] = Y [2] [2] + Y [1, 1] [2] ∧
    ∃ w, World.empty.run [] = some w ∧ (∃ w', w.exec (.value [2, 1] [2, 1]) = some (w', .real (X [2, 1] [2, 1]))) ∧
      ∃ w', w.exec (.value [2] [2]) = some (w', .real (Y [2] [2])) := by
  classical
  obtain ⟨X, Y, h1, h2, _, _⟩ := C96_branching (n := 2) (by decide)
  obtain ⟨w, e, hX, hY⟩ := h1 [] (by simp)
  have p3 : IsPartition 3 [2, 1] := ⟨by decide, by decide, rfl⟩
  have p2 : IsPartition 2 [2] := ⟨by decide, by decide, rfl⟩
  refine ⟨X, Y, ?_, w, e, hX _ _ p3 p3, hY _ _ p2 p2⟩
  have := h2 [2, 1] [2] p3 p2
  have a1 : AddsBox [2] [2, 1] := ⟨1, fun i => by rcases i with _ | _ | i <;> simp [row]⟩
  have a2 : AddsBox [1, 1] [2, 1] := ⟨0, fun i => by rcases i with _ | _ | i <;> simp [row]⟩
  rw [show partitions 2 = [[2], [1, 1]] by decide] at this
  simpa [a1, a2] using this

end Snob.Props
