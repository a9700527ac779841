import Verif.Proofs.IrrepSpec
import Verif.Proofs.Complete

/-! # Properties C30, C31: Schur's lemma, orthogonality relations and completeness -/

namespace Snob

open IP

theorem Repr'.rep_rho {n : Nat} {p : List Nat} {hp : IsPartition n p} {R : IrrepObj} (h : Repr' hp R)
    (σ : Equiv.Perm (Fin n)) (i j : Fin R.d) : h.rep σ i j = rho hp σ (h.eqv i) (h.eqv j) := by
  rw [h.rep_apply]; rfl

theorem sum_partitions {M : Type*} [AddCommMonoid M] {n : Nat} (hn : 0 < n) (f : List Nat → M) :
    ((partitions n).map f).sum = ∑ p : Pt n, f p.1 := by
  rw [← List.sum_toFinset f (partitions_nodup n)]
  symm
  refine Finset.sum_bij (fun q _ => q.1) (fun q _ => ?_) (fun a _ b _ h => Subtype.ext h) (fun q hq => ?_) (fun _ _ => rfl)
  · rw [List.mem_toFinset, mem_partitions n hn]; exact q.2
  · rw [List.mem_toFinset, mem_partitions n hn] at hq
    exact ⟨⟨q, hq⟩, Finset.mem_univ _, rfl⟩

theorem Repr'.sum2 {n : Nat} {p : List Nat} {hp : IsPartition n p} {R : IrrepObj} (h : Repr' hp R)
    (F : Wd n p → Wd n p → ℝ) : ∑ i : Fin R.d, ∑ j : Fin R.d, F (h.eqv i) (h.eqv j) = ∑ a, ∑ b, F a b := by
  rw [← h.eqv.sum_comp]
  exact Finset.sum_congr rfl fun i _ => h.eqv.sum_comp _

namespace Props

open scoped Nat

/-- **C30.** A matrix that intertwines the representations of two partitions is zero if the partitions differ and a
multiple of the identity if they are equal. -/
theorem C30_schur (n : Nat) (hn : 1 ≤ n) (p q : List Nat) (hp : IsPartition n p) (hq : IsPartition n q)
    (T : Nat → Nat → ℝ) :
    ∃ R S, mkIrrep p = some R ∧ mkIrrep q = some S ∧
      ((∀ a A B, IsPerm n a → R.eval a = some A → S.eval a = some B → ∀ (i : Fin R.d) (j : Fin S.d),
          ∑ k : Fin R.d, A i k * T k j = ∑ k : Fin S.d, T i k * B k j) →
        (p ≠ q → ∀ (i : Fin R.d) (j : Fin S.d), T i j = 0) ∧
        (p = q → ∃ c : ℝ, ∀ (i : Fin R.d) (j : Fin S.d), T i j = if (i : Nat) = j then c else 0)) := by
  obtain ⟨R, hR, _, h⟩ := exists_repr hn hp
  obtain ⟨S, hS, _, g⟩ := exists_repr hn hq
  refine ⟨R, S, hR, hS, fun hT => ?_⟩
  let T' : Matrix (Wd n p) (Wd n q) ℝ := fun u v => T (h.eqv.symm u) (g.eqv.symm v)
  have hT' : ∀ σ, rho hp σ * T' = T' * rho hq σ := by
    intro σ
    obtain ⟨A, hA, hA'⟩ := h.eval_eq σ
    obtain ⟨B, hB, hB'⟩ := g.eval_eq σ
    have := hT _ A B ⟨σ, rfl⟩ hA hB
    ext u v
    rw [Matrix.mul_apply, Matrix.mul_apply, ← h.eqv.sum_comp, ← g.eqv.sum_comp]
    have h1 := this (h.eqv.symm u) (g.eqv.symm v)
    simp only [hA', hB', h.rep_rho, g.rep_rho, Equiv.apply_symm_apply] at h1
    simpa [T'] using h1
  refine ⟨fun hne i j => ?_, fun he => ?_⟩
  · have := congrFun (congrFun (schur_ne hp hq hne T' hT') (h.eqv i)) (g.eqv j)
    simpa [T'] using this
  · subst he
    obtain rfl : R = S := by rw [hR] at hS; exact Option.some.inj hS
    obtain ⟨c, hc⟩ := schur_eq hp T' hT'
    refine ⟨c, fun i j => ?_⟩
    have h1 := congrFun (congrFun hc (h.eqv i)) (h.eqv j)
    have h2 : T' (h.eqv i) (h.eqv j) = T i j := by
      have e : ∀ x, g.eqv x = h.eqv x := fun x => rfl
      show T (h.eqv.symm (h.eqv i)) (g.eqv.symm (h.eqv j)) = _
      rw [← e j, Equiv.symm_apply_apply, Equiv.symm_apply_apply]
    rw [← h2, h1, Matrix.smul_apply, Matrix.one_apply, smul_eq_mul]
    by_cases e : i = j
    · subst e; simp
    · rw [if_neg (fun e' => e (h.eqv.injective e')), if_neg (fun e' => e (Fin.ext e')), mul_zero]

/-- **C30.** Schur's orthogonality relations for the matrices returned by the irreps. -/
theorem C30_orthogonality (n : Nat) (hn : 1 ≤ n) (p q : List Nat) (hp : IsPartition n p) (hq : IsPartition n q) :
    ∃ R S, mkIrrep p = some R ∧ mkIrrep q = some S ∧ ∃ A B : Equiv.Perm (Fin n) → Nat → Nat → ℝ,
      (∀ σ, R.eval (enc σ) = some (A σ) ∧ S.eval (enc σ) = some (B σ)) ∧
      ∀ (i j : Fin R.d) (k l : Fin S.d), ∑ σ, A σ i j * B σ k l =
        if p = q ∧ (i : Nat) = k ∧ (j : Nat) = l then (n ! : ℝ) / R.d else 0 := by
  obtain ⟨R, hR, _, h⟩ := exists_repr hn hp
  obtain ⟨S, hS, _, g⟩ := exists_repr hn hq
  choose A hA hA' using h.eval_eq
  choose B hB hB' using g.eval_eq
  refine ⟨R, S, hR, hS, A, B, fun σ => ⟨hA σ, hB σ⟩, fun i j k l => ?_⟩
  simp only [hA', hB', h.rep_rho, g.rep_rho]
  by_cases he : p = q
  · subst he
    obtain rfl : R = S := by rw [hR] at hS; exact Option.some.inj hS
    have e : ∀ x, g.eqv x = h.eqv x := fun x => rfl
    rw [orthogonality_eq hp, card_Wd hp, ← h.d_eq, e, e]
    congr 1
    simp only [EmbeddingLike.apply_eq_iff_eq, Fin.ext_iff, true_and]
  · rw [orthogonality_ne hp hq he, if_neg fun e => he e.1]

/-- **C31.** The squares of the dimensions of the irreps of `Sn` add up to `n!`. -/
theorem C31_sum_of_squares (n : Nat) (hn : 1 ≤ n) :
    ∃ L, (IP.partitions n).mapM mkIrrep = some L ∧ (L.map fun R => R.d ^ 2).sum = n ! := by
  have : ∀ p, ∃ R, IsPartition n p → mkIrrep p = some R ∧ R.d = dimW n p := by
    intro p
    by_cases hp : IsPartition n p
    · obtain ⟨R, hR, _, h⟩ := exists_repr hn hp
      exact ⟨R, fun _ => ⟨hR, h.d_eq⟩⟩
    · exact ⟨⟨0, 0, [], [], []⟩, fun h => absurd h hp⟩
  choose R hR using this
  refine ⟨(partitions n).map R, mapM_map _ _ _ fun p hp => (hR p ((mem_partitions n hn p).1 hp)).1, ?_⟩
  rw [List.map_map, sum_partitions (by omega), ← sum_sq n]
  refine Finset.sum_congr rfl fun p _ => ?_
  rw [Function.comp_apply, (hR p.1 p.2).2, pow_two]

open Classical in
/-- **C31.** The dimensions of the irreps in the representation induced from `q` add up to `n+1` times the dimension
of `q`. -/
theorem C31_induced_dimension (n : Nat) (hn : 1 ≤ n) (q : List Nat) (hq : IsPartition n q) :
    ∃ Q L, mkIrrep q = some Q ∧ ((IP.partitions (n + 1)).filter fun p => AddsBox q p).mapM mkIrrep = some L ∧
      (L.map fun R => R.d).sum = (n + 1) * Q.d := by
  obtain ⟨Q, hQ, _, g⟩ := exists_repr hn hq
  have : ∀ p, ∃ R, IsPartition (n + 1) p → mkIrrep p = some R ∧ R.d = dimW (n + 1) p := by
    intro p
    by_cases hp : IsPartition (n + 1) p
    · obtain ⟨R, hR, _, h⟩ := exists_repr (by omega) hp
      exact ⟨R, fun _ => ⟨hR, h.d_eq⟩⟩
    · exact ⟨⟨0, 0, [], [], []⟩, fun h => absurd h hp⟩
  choose R hR using this
  refine ⟨Q, _, hQ, mapM_map _ R _ fun p hp => (hR p ((mem_partitions _ (by omega) p).1 (List.mem_filter.1 hp).1)).1, ?_⟩
  rw [List.map_map]
  have e : ∀ (l : List (List Nat)), ((l.filter fun p => AddsBox q p).map ((fun R => R.d) ∘ R)).sum =
      (l.map fun p => if AddsBox q p then (R p).d else 0).sum := by
    intro l
    induction l with
    | nil => rfl
    | cons a l ih =>
      rw [List.filter_cons]
      by_cases h : AddsBox q a <;> simp [h, ih]
  rw [e, sum_partitions (by omega), g.d_eq]
  rw [show (words n q).length = dimW n q from rfl, ← sum_covers ⟨q, hq⟩]
  refine Finset.sum_congr rfl fun p _ => ?_
  rw [(hR p.1 p.2).2]

/-- **C31.** The characters weighted by the dimensions add up to `n!` at the identity and to zero elsewhere. -/
theorem C31_regular_character (n : Nat) (hn : 1 ≤ n) (σ : Equiv.Perm (Fin n)) :
    ∃ (L : List IrrepObj) (A : IrrepObj → Nat → Nat → ℝ), (IP.partitions n).mapM mkIrrep = some L ∧
      (∀ R ∈ L, R.eval (enc σ) = some (A R)) ∧
      (L.map fun R => (R.d : ℝ) * ∑ i : Fin R.d, A R i i).sum = if σ = 1 then (n ! : ℝ) else 0 := by
  have : ∀ p, ∃ R, IsPartition n p → mkIrrep p = some R ∧ ∃ hp : IsPartition n p, Repr' hp R := by
    intro p
    by_cases hp : IsPartition n p
    · obtain ⟨R, hR, _, h⟩ := exists_repr hn hp
      exact ⟨R, fun _ => ⟨hR, hp, h⟩⟩
    · exact ⟨⟨0, 0, [], [], []⟩, fun h => absurd h hp⟩
  choose R hR using this
  have hmem : ∀ X ∈ (partitions n).map R, ∃ p, ∃ hp : IsPartition n p, X = R p ∧ Repr' hp X := by
    intro X hX
    obtain ⟨p, hp, rfl⟩ := List.mem_map.1 hX
    obtain ⟨_, h2, h3⟩ := hR p ((mem_partitions n hn p).1 hp)
    exact ⟨p, h2, rfl, h3⟩
  refine ⟨(partitions n).map R, fun X => (X.eval (enc σ)).getD 0,
    mapM_map _ _ _ fun p hp => (hR p ((mem_partitions n hn p).1 hp)).1, fun X hX => ?_, ?_⟩
  · obtain ⟨p, hp, _, h⟩ := hmem X hX
    obtain ⟨A, hA, _⟩ := h.eval_eq σ
    beta_reduce
    rw [hA]; rfl
  · rw [List.map_map, sum_partitions (by omega)]
    have e := completeness_trace n σ
    rw [show (if σ = 1 then (n ! : ℝ) else 0) = _ from e.symm.trans rfl]
    refine Finset.sum_congr rfl fun p _ => ?_
    obtain ⟨_, h2, h⟩ := hR p.1 p.2
    obtain ⟨A, hA, hA'⟩ := h.eval_eq σ
    rw [Function.comp_apply]
    beta_reduce
    have hd : ((R p.1).d : ℝ) = dimW n p.1 := by rw [h.d_eq]; rfl
    rw [hd, hA]
    congr 1
    rw [Matrix.trace, ← h.eqv.sum_comp]
    refine Finset.sum_congr rfl fun i _ => ?_
    rw [Matrix.diag_apply, ← h.rep_rho, ← hA', Option.getD_some]

/-- **C31.** Every function on `Sn` is a linear combination of the matrix entries of the irreps. -/
theorem C31_entries_span (n : Nat) (hn : 1 ≤ n) (f : Equiv.Perm (Fin n) → ℝ) :
    ∃ (L : List IrrepObj) (A : Equiv.Perm (Fin n) → IrrepObj → Nat → Nat → ℝ) (c : IrrepObj → Nat → Nat → ℝ),
      (IP.partitions n).mapM mkIrrep = some L ∧ (∀ R ∈ L, ∀ σ, R.eval (enc σ) = some (A σ R)) ∧
      ∀ σ, f σ = (L.map fun R => ∑ i : Fin R.d, ∑ j : Fin R.d, c R i j * A σ R i j).sum := by
  have : ∀ p, ∃ R, IsPartition n p → mkIrrep p = some R ∧ ∃ hp : IsPartition n p, Repr' hp R := by
    intro p
    by_cases hp : IsPartition n p
    · obtain ⟨R, hR, _, h⟩ := exists_repr hn hp
      exact ⟨R, fun _ => ⟨hR, hp, h⟩⟩
    · exact ⟨⟨0, 0, [], [], []⟩, fun h => absurd h hp⟩
  choose R hR using this
  refine ⟨(partitions n).map R, fun σ X => (X.eval (enc σ)).getD 0,
    fun X i j => ∑ τ, f τ * ((X.d : ℝ) / n !) * (X.eval (enc τ)).getD 0 i j,
    mapM_map _ _ _ fun p hp => (hR p ((mem_partitions n hn p).1 hp)).1, fun X hX σ => ?_, fun σ => ?_⟩
  · obtain ⟨p, hp, rfl⟩ := List.mem_map.1 hX
    obtain ⟨_, h2, h⟩ := hR p ((mem_partitions n hn p).1 hp)
    obtain ⟨A, hA, _⟩ := h.eval_eq σ
    beta_reduce
    rw [hA]; rfl
  · have hf : f σ = ∑ τ, f τ * if τ = σ then 1 else 0 := by simp
    rw [hf, List.map_map, sum_partitions (by omega)]
    have e : ∀ τ, f τ * (if τ = σ then (1 : ℝ) else 0) = ∑ p : Pt n, f τ * ((dimW n p.1 : ℝ) / n ! *
        ∑ a, ∑ b, rho p.2 τ a b * rho p.2 σ a b) := fun τ => by
      rw [← Finset.mul_sum, ← completeness n τ σ]
    rw [Finset.sum_congr rfl fun τ _ => e τ, Finset.sum_comm]
    refine Finset.sum_congr rfl fun p _ => ?_
    obtain ⟨_, h2, h⟩ := hR p.1 p.2
    rw [Function.comp_apply]
    beta_reduce
    choose A hA hA' using h.eval_eq
    have hd : ((R p.1).d : ℝ) = dimW n p.1 := by rw [h.d_eq]; rfl
    simp only [hA, Option.getD_some, hA', h.rep_rho, hd]
    rw [h.sum2 (fun a b => (∑ τ, f τ * ((dimW n p.1 : ℝ) / n !) * rho h2 τ a b) * rho h2 σ a b)]
    simp only [Finset.sum_mul, Finset.mul_sum]
    rw [Finset.sum_comm]
    refine Finset.sum_congr rfl fun a _ => ?_
    rw [Finset.sum_comm]
    refine Finset.sum_congr rfl fun b _ => Finset.sum_congr rfl fun τ _ => ?_
    ring

/-! ## Concrete instances -/

example := C30_schur 5 (by omega) [3, 2] [3, 1, 1] ⟨by decide, by decide, by decide⟩ ⟨by decide, by decide, by decide⟩
  fun i j => (i : ℝ) - j
/-- the identity matrix satisfies the hypothesis of Schur's lemma -/
example : ∃ R, mkIrrep [3, 2] = some R ∧ ∀ A : Nat → Nat → ℝ, ∀ i j : Fin R.d,
    ∑ k : Fin R.d, A i k * IrrepObj.identMat k j = ∑ k : Fin R.d, IrrepObj.identMat i k * A k j := by
  obtain ⟨R, hR, _⟩ := exists_repr (n := 5) (by omega) (p := [3, 2]) ⟨by decide, by decide, by decide⟩
  refine ⟨R, hR, fun A i j => ?_⟩
  rw [Finset.sum_eq_single j, Finset.sum_eq_single i]
  · simp [IrrepObj.identMat]
  · intro b _ hb
    have : (i : Nat) ≠ b := fun e => hb (Fin.ext e).symm
    simp [IrrepObj.identMat, this]
  · simp
  · intro b _ hb
    have : (b : Nat) ≠ j := fun e => hb (Fin.ext e)
    simp [IrrepObj.identMat, this]
  · simp
example := C30_orthogonality 5 (by omega) [3, 2] [3, 2] ⟨by decide, by decide, by decide⟩ ⟨by decide, by decide, by decide⟩
example : ∃ L, (IP.partitions 4).mapM mkIrrep = some L ∧ (L.map fun R => R.d ^ 2).sum = 24 := C31_sum_of_squares 4 (by omega)
example := C31_induced_dimension 4 (by omega) [2, 2] ⟨by decide, by decide, by decide⟩
example := C31_regular_character 4 (by omega) (Equiv.swap 0 2)
example := C31_entries_span 4 (by omega) fun σ => if σ = Equiv.swap 0 2 then 1 else 0

end Props

end Snob
