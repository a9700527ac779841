import Verif.Proofs.CheckCG

/-! # Products and the permutations of the first three letters (C137) -/

namespace Snob

open Matrix IP SnVec

section
variable {n : Nat} {Φ : Coef} {eig : Eig}

/-- what all the coefficients have to satisfy for `σ` -/
def EquiFor (n : Nat) (Φ : Coef) (σ : Equiv.Perm (Fin n)) : Prop := ∀ a b, IsPartition n a → IsPartition n b → EquiAt n Φ a b σ

/-- the same, for the inverse -/
theorem EquiFor.flip (hn : 1 ≤ n) {σ : Equiv.Perm (Fin n)} (h : EquiFor n Φ σ⁻¹) {a b p : List Nat} (ha : IsPartition n a) (hb : IsPartition n b)
    (hp : IsPartition n p) {c r : Nat} (hc : c < kronN n a b p) (hr : r < dimOf p) (x : XI a b) :
    ∑ y, pm n a b σ x y * Φ a b p r c (fstIx y) (sndIx y) = ∑ s ∈ Finset.range (dimOf p), evalN p (enc σ) s r * Φ a b p s c (fstIx x) (sndIx x) := by
  have := h a b ha hb p hp c hc r hr x
  rw [pm_inv hn ha hb] at this
  simp only [Matrix.transpose_apply] at this
  rw [this]
  exact Finset.sum_congr rfl fun s hs => by rw [evalN_inv hn hp σ hr (Finset.mem_range.1 hs)]

theorem EquiFor.of_flip (hn : 1 ≤ n) {σ : Equiv.Perm (Fin n)} (h : ∀ a b p, IsPartition n a → IsPartition n b → IsPartition n p →
    ∀ c < kronN n a b p, ∀ r < dimOf p, ∀ x : XI a b, ∑ y, pm n a b σ x y * Φ a b p r c (fstIx y) (sndIx y) =
      ∑ s ∈ Finset.range (dimOf p), evalN p (enc σ) s r * Φ a b p s c (fstIx x) (sndIx x)) : EquiFor n Φ σ⁻¹ := by
  intro a b ha hb p hp c hc r hr x
  rw [pm_inv hn ha hb]
  simp only [Matrix.transpose_apply]
  rw [h a b p ha hb hp c hc r hr x]
  exact Finset.sum_congr rfl fun s hs => by rw [evalN_inv hn hp σ hr (Finset.mem_range.1 hs)]

theorem psi_equiFor {a b : List Nat} {σ : Equiv.Perm (Fin n)} (hΦ : EquiFor n Φ σ⁻¹) (hn : 1 ≤ n) (ha : IsPartition (n + 1) a)
    (hb : IsPartition (n + 1) b) {mu : List Nat} (hm : IsPartition n mu) {t k : Nat} (ht : t < dimOf mu) (hk : k < kmul n a b mu) (x : XI a b) :
    ∑ y : XI a b, pm (n + 1) a b (extend σ) x y * psi n Φ a b mu t k (fstIx y) (sndIx y) =
      ∑ s ∈ Finset.range (dimOf mu), evalN mu (enc σ) s t * psi n Φ a b mu s k (fstIx x) (sndIx x) := by
  obtain ⟨h1, h2⟩ := loc_mem hk
  unfold psi
  generalize loc n (sprs a b) mu k = l at h1 h2 ⊢
  obtain ⟨e, d⟩ := l
  obtain ⟨m1, m2⟩ := mem_sprs.1 h1
  dsimp only at *
  rw [pm_embP hn ha hb h1 (Φ e.1 e.2 mu t d) (fun i j => ∑ s ∈ Finset.range (dimOf mu), evalN mu (enc σ) s t * Φ e.1 e.2 mu s d i j) σ
    (fun z => (hΦ.flip hn (sub_part ha _ m1) (sub_part hb _ m2) hm h2 ht z).symm)]
  unfold embP
  split_ifs
  · rfl
  · simp

/-- one step of the recursion keeps what the coefficients satisfy, whatever the solver returns: it only combines the columns of the smaller products -/
theorem EquiFor.next (hn : 1 ≤ n) {σ : Equiv.Perm (Fin n)} (h : EquiFor n Φ σ⁻¹) : EquiFor (n + 1) (nextPhi eig n Φ) (extend σ)⁻¹ := by
  refine EquiFor.of_flip (by omega) fun a b lam ha hb hl c hc r hr x => ?_
  obtain ⟨mu, hmu, t, ht, rfl⟩ := exists_block hn hl hr
  have hm := sub_part hl mu hmu
  have e1 : ∀ t < dimOf mu, ∀ i j, nextPhi eig n Φ a b lam (offOf (subs lam) mu + t) c i j =
      ∑ k : Fin (kmul n a b mu), psi n Φ a b mu t k i j * Fm eig n Φ a b lam mu k ⟨c, hc⟩ := fun t ht i j => by
    rw [nextPhi_off hmu ht, nextB_lt hc]
  have e2 : ∑ s ∈ Finset.range (dimOf lam), evalN lam (enc (extend σ)) s (offOf (subs lam) mu + t) * nextPhi eig n Φ a b lam s c (fstIx x) (sndIx x) =
      ∑ s ∈ Finset.range (dimOf mu), evalN mu (enc σ) s t * nextPhi eig n Φ a b lam (offOf (subs lam) mu + s) c (fstIx x) (sndIx x) := by
    rw [sum_blocks hn hl]
    have : ∀ nu ∈ subs lam, (∑ s ∈ Finset.range (dimOf nu), evalN lam (enc (extend σ)) (offOf (subs lam) nu + s) (offOf (subs lam) mu + t) *
        nextPhi eig n Φ a b lam (offOf (subs lam) nu + s) c (fstIx x) (sndIx x)) =
        if nu = mu then ∑ s ∈ Finset.range (dimOf mu), evalN mu (enc σ) s t * nextPhi eig n Φ a b lam (offOf (subs lam) mu + s) c (fstIx x) (sndIx x)
        else 0 := by
      intro nu hnu
      by_cases h : nu = mu
      · subst h
        rw [if_pos rfl]
        exact Finset.sum_congr rfl fun s hs => by rw [evalN_block hn hl σ hnu hnu (Finset.mem_range.1 hs) ht, if_pos rfl]
      · rw [if_neg h]
        exact Finset.sum_eq_zero fun s hs => by rw [evalN_block hn hl σ hnu hmu (Finset.mem_range.1 hs) ht, if_neg h, zero_mul]
    rw [List.map_congr_left this, ← List.sum_toFinset _ (subs_nodup lam), Finset.sum_ite_eq', if_pos (List.mem_toFinset.2 hmu)]
  rw [e2, Finset.sum_congr rfl fun y _ => by rw [e1 t ht], Finset.sum_congr (s₁ := Finset.range _) rfl fun s hs => by rw [e1 s (Finset.mem_range.1 hs)]]
  simp only [Finset.mul_sum]
  rw [Finset.sum_comm, Finset.sum_comm (s := Finset.range _)]
  refine Finset.sum_congr rfl fun k _ => ?_
  simp only [← mul_assoc]
  rw [← Finset.sum_mul, ← Finset.sum_mul, psi_equiFor h hn ha hb hm ht k.2]

/-- a permutation that fixes the last letter -/
theorem exists_extend (σ : Equiv.Perm (Fin (n + 1))) (h : σ (Fin.last n) = Fin.last n) : ∃ τ : Equiv.Perm (Fin n), extend τ = σ := by
  have hne : ∀ i : Fin n, σ i.castSucc ≠ Fin.last n := fun i hi => by
    have := σ.injective (hi.trans h.symm)
    exact (Fin.castSucc_lt_last i).ne this
  have hne' : ∀ i : Fin n, σ⁻¹ i.castSucc ≠ Fin.last n := fun i hi => by
    have : i.castSucc = σ (Fin.last n) := by rw [← hi]; simp
    rw [h] at this
    exact (Fin.castSucc_lt_last i).ne this
  refine ⟨⟨fun i => (σ i.castSucc).castPred (hne i), fun i => (σ⁻¹ i.castSucc).castPred (hne' i), fun i => ?_, fun i => ?_⟩, ?_⟩
  · apply Fin.castSucc_injective; simp
  · apply Fin.castSucc_injective; simp
  · ext i
    refine Fin.lastCases ?_ (fun j => ?_) i
    · rw [extend_last, h]
    · rw [extend_castSucc]; simp

/-- the coefficients are compatible with the permutations of the first three letters -/
theorem equiFor_three (he : EigOk eig) (hn : 1 ≤ n) (σ : Equiv.Perm (Fin n)) (hσ : ∀ i : Fin n, 3 ≤ (i : Nat) → σ i = i) :
    EquiFor n (cgPhi eig n) σ := by
  induction n with
  | zero => omega
  | succ n ih =>
    by_cases h3 : n + 1 ≤ 3
    · have hΦ : EquiPhi (n + 1) (cgPhi eig (n + 1)) := by
        rcases (by omega : n = 0 ∨ n = 1 ∨ n = 2) with rfl | rfl | rfl
        · exact equi_one eig
        · exact equi_two he
        · exact equi_three he
      exact fun a b ha hb p hp c hc r hr x => hΦ a b p ha hb hp c hc r hr σ x
    · obtain ⟨τ, rfl⟩ := exists_extend σ (hσ _ (by rw [Fin.val_last]; omega))
      obtain ⟨k, rfl⟩ : ∃ k, n = k + 1 := ⟨n - 1, by omega⟩
      have := ih (by omega) τ fun i hi => by
        have := hσ i.castSucc hi
        rw [extend_castSucc] at this
        exact Fin.castSucc_injective _ this
      have h2 := EquiFor.next (eig := eig) (by omega) (σ := τ⁻¹) (by rwa [inv_inv])
      rwa [extend_inv, inv_inv] at h2

end

end Snob
