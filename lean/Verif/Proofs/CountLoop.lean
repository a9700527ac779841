import Verif.Proofs.CountFFT

/-!
The number of operations of the transforms and of `apply_left` with a permutation.
-/

namespace Snob

open IP
open scoped Nat

/-- the operations of one level of the forward transform, for each value -/
def upOps (k : Nat) : Nat := 3 * ((k + 1) * k / 2) + 2 * k + 1

/-- the operations of one level of the inverse transform, for each value -/
def downOps (k : Nat) : Nat := 3 * ((k + 1) * k / 2) + 2 * k + 3

theorem two_tri (k : Nat) : 2 * ((k + 1) * k / 2) = (k + 1) * k := by
  have : 2 ∣ (k + 1) * k := by rw [Nat.mul_comm]; exact (Nat.even_mul_succ_self k).two_dvd
  exact Nat.mul_div_cancel' this

theorem sum_upOps {m n : Nat} (hm : 1 ≤ m) (hn : m ≤ n) :
    2 * ∑ k ∈ Finset.Ico m n, upOps k + (m - 1) * (m + 1) * (m + 2) = (n - 1) * (n + 1) * (n + 2) := by
  induction n, hn using Nat.le_induction with
  | base => simp
  | succ n hn ih =>
    rw [Finset.sum_Ico_succ_top hn, Nat.mul_add, Nat.add_right_comm, ih]
    unfold upOps
    have := two_tri n
    obtain ⟨n, rfl⟩ : ∃ x, n = x + 1 := ⟨n - 1, by omega⟩
    simp only [Nat.add_sub_cancel]
    nlinarith

theorem sum_downOps {m n : Nat} (hm : 1 ≤ m) (hn : m ≤ n) :
    2 * ∑ k ∈ Finset.Ico m n, downOps k + (m - 1) * (m * m + 3 * m + 6) = (n - 1) * (n * n + 3 * n + 6) := by
  induction n, hn using Nat.le_induction with
  | base => simp
  | succ n hn ih =>
    rw [Finset.sum_Ico_succ_top hn, Nat.mul_add, Nat.add_right_comm, ih]
    unfold downOps
    have := two_tri n
    obtain ⟨n, rfl⟩ : ∃ x, n = x + 1 := ⟨n - 1, by omega⟩
    simp only [Nat.add_sub_cancel]
    nlinarith

section
variable {apC : ViewActC} {ap : ViewAct} {m n : Nat} (hm : 0 < m) (hap : ∀ k, m < k → k ≤ n → CostOk apC ap k)
include hm hap

theorem upLoopC_costs (Ls : List LevelT) : ∀ {l : Nat} {L : LevelT} {v : List MPart}, m ≤ l → l + Ls.length = n → ChainOk m l (L :: Ls) →
    DimV m l (n ! / l !) v → Costs (upLoopC apC Ls v) (upLoop ap Ls v) (n ! / m ! * ∑ k ∈ Finset.Ico l n, upOps k) (DimV m n 1) := by
  induction Ls with
  | nil =>
    intro l L v hl hn hC hv
    obtain rfl : l = n := by simpa using hn
    rw [quot_self] at hv
    exact (Costs.pure hv).mono' (Nat.zero_le _)
  | cons L' Ls ih =>
    intro l L v hl hn hC hv
    simp only [List.length_cons] at hn
    rcases hC with _ | ⟨hL, hB, hC⟩
    have hL' : LevelOk m (l + 1) L' := by cases hC <;> assumption
    rw [quot_pred (n := n) (by omega)] at hv
    have h := levelUpC_costs hm hl (hap (l + 1) (by omega) (by omega)) hL' hB hv
    rw [quot_quot (by omega) (by omega)] at h
    rw [upLoopC, upLoop, Finset.sum_eq_sum_Ico_succ_bot (by omega), Nat.mul_add]
    exact Costs.bind h fun w hw => ih (by omega) (by omega) hC hw

theorem fftWithC_costs (hn : m ≤ n) {Ls : List LevelT} (hLs : fftLevels n m = some Ls) (f : Nat → ℝ) :
    Costs (fftWithC apC Ls (n ! / m !) f) (fftWith ap Ls (n ! / m !) f) (n ! / m ! * ∑ k ∈ Finset.Ico m n, upOps k) fun _ => True := by
  obtain ⟨Ls', e1, e2, e3⟩ := fftLevels_ok hm hn
  obtain rfl : Ls' = Ls := Option.some.inj (e1.symm.trans hLs)
  obtain ⟨L, Ls, rfl⟩ : ∃ L Ls, Ls' = L :: Ls := by
    rcases Ls' with _ | ⟨L, Ls⟩
    · simp at e2
    · exact ⟨L, Ls, rfl⟩
  simp only [List.length_cons] at e2
  unfold fftWithC fftWith
  refine (Costs.bind (Costs.free (Q := fun P => DimV m m (n ! / m !) [P]) fun P hP => ?_) fun P hP =>
    Costs.bind (upLoopC_costs hm hap Ls (Nat.le_refl m) (by omega) e3 hP) fun v _ => Costs.free fun _ _ => trivial).mono'
      (k := 0 + (n ! / m ! * ∑ k ∈ Finset.Ico m n, upOps k + 0)) (by omega)
  unfold MPart.ofFunction at hP
  obtain ⟨R, -, rfl⟩ := Option.map_eq_some_iff.1 hP
  unfold DimV
  rw [PL_self hm]
  refine .cons ⟨rfl, ?_, ?_⟩ .nil
  · rw [dimW, words_self hm]; rfl
  · rw [colW_self hm]; rfl

theorem downLoopC_costs (Ls : List LevelT) : ∀ {l : Nat} {L : LevelT} {v : List MPart}, m ≤ l → l + Ls.length = n → ChainOk m l (L :: Ls) →
    List.Forall₂ (DimI m n 1) (PL m n) v → Costs (downLoopC apC (L :: Ls) v) (downLoop ap (L :: Ls) v)
      (n ! / m ! * ∑ k ∈ Finset.Ico l n, downOps k) (List.Forall₂ (DimI m l (n ! / l !)) (PL m l)) := by
  induction Ls with
  | nil =>
    intro l L v hl hn hC hv
    obtain rfl : l = n := by simpa using hn
    rw [quot_self]
    exact (Costs.pure hv).mono' (Nat.zero_le _)
  | cons L' Ls ih =>
    intro l L v hl hn hC hv
    simp only [List.length_cons] at hn
    rcases hC with _ | ⟨hL, hB, hC⟩
    have hL' : LevelOk m (l + 1) L' := by cases hC <;> assumption
    rw [downLoopC, downLoop, Finset.sum_eq_sum_Ico_succ_bot (by omega), Nat.mul_add, Nat.add_comm, quot_pred (n := n) (l := l) (by omega)]
    refine Costs.bind (ih (l := l + 1) (by omega) (by omega) hC hv) fun w hw => ?_
    have hpos : 0 < n ! / (l + 1)! := Nat.div_pos (Nat.factorial_le (by omega)) (Nat.factorial_pos _)
    have h := levelDownC_costs hm hl (hap (l + 1) (by omega) (by omega)) hL hL' hB hpos hw
    rw [quot_quot (by omega) (by omega)] at h
    exact h

theorem ifftWithC_costs (hn : m ≤ n) {Ls : List LevelT} (hLs : fftLevels n m = some Ls) {ws : List VPart}
    (hs : HasShape (fun R => startCols m R.tableaux) (PL m n) ws) :
    Costs (ifftWithC apC Ls ws) (ifftWith ap Ls ws) (n ! / m ! * ∑ k ∈ Finset.Ico m n, downOps k) fun _ => True := by
  obtain ⟨Ls', e1, e2, e3⟩ := fftLevels_ok hm hn
  obtain rfl : Ls' = Ls := Option.some.inj (e1.symm.trans hLs)
  obtain ⟨L, Ls, rfl⟩ : ∃ L Ls, Ls' = L :: Ls := by
    rcases Ls' with _ | ⟨L, Ls⟩
    · simp at e2
    · exact ⟨L, Ls, rfl⟩
  simp only [List.length_cons] at e2
  have hv : List.Forall₂ (DimI m n 1) (PL m n) (ws.map MPart.ofPart) := by
    rw [List.forall₂_map_right_iff, List.forall₂_iff_get]
    refine ⟨hs.1.symm, fun i h1 h2 => ?_⟩
    have hi : (PL m n)[i]? = some ((PL m n).get ⟨i, h1⟩) := List.getElem?_eq_getElem h1
    obtain ⟨k1, k2, k3⟩ := hs.2 i _ _ hi (List.getElem?_eq_getElem h2)
    obtain ⟨hp, -⟩ := (mem_PL (by omega) _).1 (List.mem_of_getElem? hi)
    obtain ⟨R, hR, -, hrep⟩ := exists_repr (by omega) hp
    obtain rfl : R = (ws[i]).irrep := Option.some.inj (hR.symm.trans k1)
    refine ⟨⟨rfl, ?_, ?_⟩, k1⟩
    · exact k2.trans (irrep_d (by omega) hp hR)
    · exact k3.trans (hrep.startCols_length hn)
  unfold ifftWithC ifftWith
  refine (Costs.bind (Costs.free (Q := fun _ => True) fun _ _ => trivial) fun L0 _ => ?_).mono'
      (k := 0 + (n ! / m ! * ∑ k ∈ Finset.Ico m n, downOps k + (0 + 0))) (by omega)
  split
  · refine Costs.bind (downLoopC_costs hm hap Ls (Nat.le_refl m) (by omega) e3 hv) fun v _ => ?_
    exact Costs.bind (Costs.free (Q := fun _ => True) fun _ _ => trivial) fun P _ => Costs.pure trivial
  · exact Costs.none

end

/-! ### a permutation -/

theorem applySigmaC_costs {K : Type} [DecidableEq K] {n : Nat} {p : List Nat} {hp : IsPartition n p} {R : IrrepObj} (h : Repr' hp R)
    (cols : List K) (σ : Equiv.Perm (Fin n)) (A : Nat → K → ℝ) :
    Costs (R.applySigmaC cols (enc σ) A) (R.applySigma cols (enc σ) A) (n * (n - 1) / 2 * (3 * (R.d * cols.length))) fun _ => True := by
  unfold IrrepObj.applySigmaC IrrepObj.applySigma
  split
  · rw [h.n_eq]
    refine (Costs.bind (Costs.free (Q := fun s => s = shArr n σ) fun s hs => ?_) fun s hs => ?_).mono'
      (k := 0 + n * (n - 1) / 2 * (3 * (R.d * cols.length))) (by omega)
    · exact (Option.some.inj ((shifts_eq σ).symm.trans hs)).symm
    · subst hs
      unfold forUpC forUp
      have e : ((n : Int) + 1 - 2).toNat = n - 1 := by omega
      rw [e]
      refine (Costs.iterUp (c := fun t => t * (3 * (R.d * cols.length))) (n - 1) 2 1 _ (fun t ht A _ => ?_) trivial).mono' ?_
      · refine (Costs.bind (Costs.free (Q := fun b => 1 ≤ b) fun b hb => ?_) fun b hb => ?_).mono'
          (k := 0 + (1 + t) * (3 * (R.d * cols.length))) (by omega)
        · rw [show (2 : Int) + t - 1 = ((t + 1 : Nat) : Int) by omega, rd_ofNat] at hb
          unfold shArr at hb
          rw [List.getElem?_map] at hb
          cases hg : (sh n σ)[t + 1]? with
          | none => rw [hg] at hb; cases hb
          | some x =>
            rw [hg] at hb
            simp at hb
            omega
        · unfold forDownC forDown
          refine (Costs.iterDown (c := 3 * (R.d * cols.length)) _ _ _ (fun s hs A _ => ?_) trivial).mono' ?_
          · have e2 : (2 : Int) + t - 1 - s = ((t + 1 - s : Nat) : Int) := by omega
            rw [e2]
            exact applyTauC_costs (h.slotSpec (by omega) (by omega)) cols A
          · exact Nat.mul_le_mul_right _ (by omega)
      · rw [← Finset.sum_mul]
        refine Nat.mul_le_mul_right _ (le_of_eq ?_)
        rcases n with _ | n
        · rfl
        · have : ∑ t ∈ Finset.range n, (1 + t) = ∑ t ∈ Finset.range (n + 1), t := by
            rw [Finset.sum_range_succ']
            simp [Nat.add_comm]
          rw [Nat.add_sub_cancel, this, Finset.sum_range_id]
          rfl
  · exact Costs.none

end Snob
