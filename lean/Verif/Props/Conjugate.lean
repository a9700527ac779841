import Verif.Proofs.Conjugate
import Verif.Props.CG
import Verif.Props.Classes

/-! # Property C94: the transposed diagram is the product with the sign -/

namespace Snob.Props

open scoped Nat

variable {n : Nat}

/-- **C94.** Every partition has exactly one mirror image, again a partition of the same number, and the mirror image of
the mirror image is the partition. -/
theorem C94_mirror (n : Nat) (p : List Nat) (hp : IsPartition n p) :
    ∃! q, IsPartition n q ∧ Mirror p q ∧ Mirror q p := by
  obtain ⟨q, hq, h⟩ := mirror_exists hp
  exact ⟨q, ⟨hq, h, h.symm⟩, fun q' hq' => (Mirror.unique hq'.1 hq hq'.2.1 h)⟩

theorem C94_example_part : IsPartition 4 [3, 1] ∧ IsPartition 4 [2, 1, 1] ∧ Mirror [3, 1] [2, 1, 1] := by
  refine ⟨⟨by decide, by decide, rfl⟩, ⟨by decide, by decide, rfl⟩, fun i j => ?_⟩
  rcases i with _ | _ | i <;> rcases j with _ | _ | _ | j <;> simp [row]

/-- **C94.** The representations of mirror images have the same dimension; numbering the tableaux of one by the transposed
tableaux of the other, the matrix entries agree up to the sign of the permutation and up to a sign for each tableau. -/
theorem C94_matrices (hn : 1 ≤ n) (p q : List Nat) (hp : IsPartition n p) (hq : IsPartition n q) (hm : Mirror p q) :
    ∃ R S, mkIrrep p = some R ∧ mkIrrep q = some S ∧ ∃ (t : Fin R.d ≃ Fin S.d) (e : Fin R.d → ℝ),
      (∀ i, e i = 1 ∨ e i = -1) ∧
      (∀ i : Fin R.d, ∃ T U, R.tableaux[(i : Nat)]? = some T ∧ S.tableaux[(t i : Nat)]? = some U ∧ ∀ r c, cell T r c = cell U c r) ∧
      ∀ σ : Equiv.Perm (Fin n), ∃ A B, R.eval (enc σ) = some A ∧ S.eval (enc σ) = some B ∧
        ∀ i j : Fin R.d, B (t i) (t j) = ((Equiv.Perm.sign σ : Int) : ℝ) * (e i * A i j * e j) := by
  obtain ⟨R, hR, _, h⟩ := exists_repr hn hp
  obtain ⟨S, hS, _, g⟩ := exists_repr hn hq
  refine ⟨R, S, hR, hS, (h.eqv.trans (mirrorE hp hq hm)).trans g.eqv.symm, fun i => sgnW (h.eqv i).1, fun i => ?_, fun i => ?_,
    fun σ => ?_⟩
  · exact mul_self_eq_one_iff.1 (sgnW_sq _)
  · refine ⟨_, _, h.tab_get i, g.tab_get _, fun r c => ?_⟩
    have hl := (h.eqv i).lat hp
    simp only [Equiv.trans_apply, Equiv.apply_symm_apply]
    show cell (toTab (h.eqv i).1) r c = cell (toTab (trW (h.eqv i).1)) c r
    refine Option.ext fun m => ?_
    rw [cell_toTab hl, cell_toTab (trW_lat hl), trW_length, posW_trW hl]
    simp only [Prod.ext_iff]
    tauto
  · obtain ⟨A, hA, hA'⟩ := h.eval_eq σ
    obtain ⟨B, hB, hB'⟩ := g.eval_eq σ
    refine ⟨A, B, hA, hB, fun i j => ?_⟩
    rw [hB', hA', h.rep_apply, g.rep_apply]
    simp only [Repr'.mat, Matrix.submatrix_apply, Equiv.trans_apply, Equiv.apply_symm_apply]
    exact rho_mirror hp hq hm σ _ _

/-- **C94.** After every history of calls, the character of the mirror image is the character times the sign of the class. -/
theorem C94_characters (cs : List Call) (hv : ∀ c ∈ cs, c.Valid) (hn : 1 ≤ n) (p q mu : List Nat) (hp : IsPartition n p)
    (hq : IsPartition n q) (hm : Mirror p q) (hmu : IsPartition n mu) (σ : Equiv.Perm (Fin n)) (hσ : HasCycleType σ mu) :
    ∃ w w₁ w₂ x, World.empty.run cs = some w ∧ w.exec (.value p mu) = some (w₁, .real x) ∧
      w.exec (.value q mu) = some (w₂, .real (((Equiv.Perm.sign σ : Int) : ℝ) * x)) := by
  obtain rfl := hp.sum
  obtain ⟨w, w₁, e, e₁⟩ := history_exec cs hv (.value p mu) ⟨hn, hp, hmu⟩
  obtain ⟨w', w₂, e', e₂⟩ := history_exec cs hv (.value q mu) ⟨by rw [hq.sum]; exact hn, by rw [hq.sum]; exact hq, by rw [hq.sum]; exact hmu⟩
  obtain rfl : w = w' := Option.some.inj (e.symm.trans e')
  refine ⟨w, w₁, w₂, _, e, e₁, e₂.trans ?_⟩
  have : chiVal q.sum q mu = ((Equiv.Perm.sign σ : Int) : ℝ) * chiVal p.sum p mu := by
    rw [hq.sum, chiVal_eq hp, chiVal_eq hq]
    have hb := hasCycleType_block hmu
    unfold chiAt
    rw [chi_class hp hmu hb hσ, chi_class hq hmu hb hσ, chi_mirror hp hq hm]
  exact congrArg (fun z => some (w₂, Val.real z)) this

/-- **C94.** In particular the character of a symmetric diagram is 0 on every class of odd permutations. -/
theorem C94_symmetric (cs : List Call) (hv : ∀ c ∈ cs, c.Valid) (hn : 1 ≤ n) (p mu : List Nat) (hp : IsPartition n p)
    (hm : Mirror p p) (hmu : IsPartition n mu) (σ : Equiv.Perm (Fin n)) (hσ : HasCycleType σ mu)
    (hodd : Equiv.Perm.sign σ = -1) :
    ∃ w w', World.empty.run cs = some w ∧ w.exec (.value p mu) = some (w', .real 0) := by
  obtain ⟨w, w₁, w₂, x, e, e₁, e₂⟩ := C94_characters cs hv hn p p mu hp hp hm hmu σ hσ
  have h := e₁.symm.trans e₂
  simp only [Option.some.injEq, Prod.mk.injEq, Val.real.injEq, hodd] at h
  have hx : x = 0 := by
    have := h.2
    push_cast at this
    linarith
  exact ⟨w, w₁, e, hx ▸ e₁⟩

example : ∃ w w', World.empty.run [] = some w ∧ w.exec (.value [2, 1] [2, 1]) = some (w', .real 0) := by
  refine C94_symmetric (n := 3) [] (by simp) (by decide) [2, 1] [2, 1] ⟨by decide, by decide, rfl⟩ (fun i j => ?_)
    ⟨by decide, by decide, rfl⟩ (Equiv.swap 0 2) (by unfold HasCycleType; decide) (Equiv.Perm.sign_swap (by decide))
  rcases i with _ | _ | i <;> rcases j with _ | _ | j <;> simp [row]

example : ∃ w w₁ w₂ x, World.empty.run [] = some w ∧ w.exec (.value [3, 1] [3, 1]) = some (w₁, .real x) ∧
    w.exec (.value [2, 1, 1] [3, 1]) = some (w₂, .real x) := by
  obtain ⟨h1, h2, h3⟩ := C94_example_part
  obtain ⟨w, w₁, w₂, x, e, e₁, e₂⟩ := C94_characters (n := 4) [] (by simp) (by decide) [3, 1] [2, 1, 1] [3, 1] h1 h2 h3
    ⟨by decide, by decide, rfl⟩ (Equiv.swap 0 1 * Equiv.swap 1 2) (by unfold HasCycleType; decide)
  refine ⟨w, w₁, w₂, x, e, e₁, ?_⟩
  rw [e₂, map_mul, Equiv.Perm.sign_swap (by decide), Equiv.Perm.sign_swap (by decide)]
  norm_num

theorem kronN_mirror {a b c a' b' : List Nat} (ha : IsPartition n a) (hb : IsPartition n b) (hc : IsPartition n c)
    (ha' : IsPartition n a') (hb' : IsPartition n b') (h : Mirror a a') (h' : Mirror b b') : kronN n a' b' c = kronN n a b c := by
  have : (kronN n a' b' c : ℝ) = kronN n a b c := by
    rw [kronN_eq ha' hb' hc, kronN_eq ha hb hc]
    unfold kron
    congr 1
    refine Finset.sum_congr rfl fun σ _ => ?_
    rw [chi_mirror ha ha' h, chi_mirror hb hb' h']
    have hs : ((Equiv.Perm.sign σ : Int) : ℝ) * ((Equiv.Perm.sign σ : Int) : ℝ) = 1 := by
      rw [← Int.cast_mul, ← Units.val_mul, Int.units_mul_self]; simp
    linear_combination (chi ha σ * chi hb σ * chi hc σ) * hs
  exact_mod_cast this

theorem kronN_sign (hn : 1 ≤ n) {a c : List Nat} (ha : IsPartition n a) (hc : IsPartition n c) [Decidable (Mirror a c)] :
    kronN n (List.replicate n 1) a c = if Mirror a c then 1 else 0 := by
  obtain ⟨a', ha', h⟩ := mirror_exists ha
  have hiff : Mirror a c ↔ a' = c := ⟨fun hm => Mirror.unique ha' hc h hm, fun e => e ▸ h⟩
  have hrow : Mirror (List.replicate n 1) [n] := fun i j => by
    rcases j with _ | j
    · simp [row, List.getElem?_replicate]; split <;> simp_all
    · simp [row, List.getElem?_replicate]; split <;> simp
  have e : kronN n (List.replicate n 1) a c = kronN n [n] a' c :=
    (kronN_mirror (isPartition_col n) ha hc (isPartition_row hn) ha' hrow h).symm
  rw [e]
  have : (kronN n [n] a' c : ℝ) = if a' = c then 1 else 0 := by
    rw [kronN_eq (isPartition_row hn) ha' hc]
    unfold kron
    have hf : (n ! : ℝ) ≠ 0 := by exact_mod_cast n.factorial_ne_zero
    rw [Finset.sum_congr rfl fun σ _ => by rw [chi_row hn, one_mul], chi_orthogonality ha' hc]
    split <;> simp [hf]
  simp only [hiff]
  rcases Decidable.em (a' = c) with h | h
  · rw [if_pos h] at this ⊢; exact_mod_cast this
  · rw [if_neg h] at this ⊢; exact_mod_cast this

/-- **C94.** The multiplicities do not change when two of the three diagrams are transposed, whatever was called before. -/
theorem C94_multiplicities (hn : 1 ≤ n) (a b c a' b' : List Nat) (ha : IsPartition n a) (hb : IsPartition n b)
    (hc : IsPartition n c) (ha' : IsPartition n a') (hb' : IsPartition n b') (h : Mirror a a') (h' : Mirror b b') :
    ∃ K : Nat, ∀ cs : List CGCall, (∀ x ∈ cs, x.Valid) → ∃ s s₁ s₂, CGState.empty.run cs = some s ∧
      s.exec (.coeff a b c) = some (s₁, .int K) ∧ s.exec (.coeff a' b' c) = some (s₂, .int K) := by
  refine ⟨kronN n a b c, fun cs hcs => ?_⟩
  obtain ⟨s, e, hs⟩ := CGState.ok_empty.run cs hcs
  obtain ⟨s₁, e₁, _⟩ := hs.coeff hn ha hb hc
  obtain ⟨s₂, e₂, _⟩ := hs.coeff hn ha' hb' hc
  rw [kronN_mirror ha hb hc ha' hb' h h'] at e₂
  refine ⟨s, s₁, s₂, e, ?_, ?_⟩
  · simp only [CGState.exec, e₁, Option.bind_eq_bind, Option.bind_some]
  · simp only [CGState.exec, e₂, Option.bind_eq_bind, Option.bind_some]

/-- **C94.** The product of an irrep with the sign is the irrep of the mirror image: the multiplicity is 1 there and 0
everywhere else. -/
theorem C94_sign_product (hn : 1 ≤ n) (a c : List Nat) (ha : IsPartition n a) (hc : IsPartition n c) (cs : List CGCall)
    (hcs : ∀ x ∈ cs, x.Valid) : ∃ s s', CGState.empty.run cs = some s ∧ ∃ K : Nat,
      s.exec (.coeff (List.replicate n 1) a c) = some (s', .int K) ∧ (Mirror a c → K = 1) ∧ (¬ Mirror a c → K = 0) := by
  classical
  obtain ⟨s, e, hs⟩ := CGState.ok_empty.run cs hcs
  obtain ⟨s₁, e₁, _⟩ := hs.coeff hn (isPartition_col n) ha hc
  refine ⟨s, s₁, e, kronN n (List.replicate n 1) a c, ?_, fun h => ?_, fun h => ?_⟩
  · simp only [CGState.exec, e₁, Option.bind_eq_bind, Option.bind_some]
  · rw [kronN_sign hn ha hc, if_pos h]
  · rw [kronN_sign hn ha hc, if_neg h]

example : ∃ s s', CGState.empty.run [] = some s ∧ s.exec (.coeff [1, 1, 1, 1] [3, 1] [2, 1, 1]) = some (s', .int 1) := by
  obtain ⟨h1, h2, h3⟩ := C94_example_part
  obtain ⟨s, s', e, K, e', hK, _⟩ := C94_sign_product (n := 4) (by decide) [3, 1] [2, 1, 1] h1 h2 [] (by simp)
  rw [hK h3] at e'
  exact ⟨s, s', e, e'⟩

end Snob.Props
