import Verif.Proofs.ViewSpec
import Verif.Proofs.TrivSign

/-! # Property C32: the action on tensor views -/

namespace Snob.Props

open Snob Snob.Perm Snob.IP

section
variable (n : Nat) (hn : 1 ≤ n) (p : List Nat) (hp : IsPartition n p)
include hn hp

/-- **C32.** Full statement: for every partition and every adjacent transposition, `apply_left` on a tensor
view does what `apply_left` on a matrix does. This is false (`C32_not_view_eq_matrix`). What holds: it is true
of the shapes for which the exchanged pairs of every adjacent transposition are packed in the list of
tableaux. -/
theorem C32_view_action_partial :
    ∃ R, mkIrrep p = some R ∧ ((∀ k, 1 ≤ k → k < n → PackedPairs R.tableaux k) →
      ∀ {K : Type} [DecidableEq K] (cols : List K), cols.Nodup → ∀ (X : Nat → K → ℝ) (tau : Nat),
        1 ≤ tau → tau < n → ∃ Y, R.applyTau cols tau X = some Y ∧ R.applyTauView cols tau X = some Y) := by
  obtain ⟨R, hR, _, h⟩ := exists_repr hn hp
  refine ⟨R, hR, fun hk K _ cols hc X tau h1 h2 => ⟨_, applyTau_eq (h.slotSpec h1 h2) cols hc X, ?_⟩⟩
  exact h.view_packed (fun t ht1 ht2 => (h.packed_iff ht1 (h.n_eq ▸ ht2)).2 (hk t ht1 (h.n_eq ▸ ht2)))
    cols hc h1 h2 X

/-- **C32.** If the pairs of a transposition are not packed, then `apply_left` on a tensor view either writes
outside its tables or makes the first row of the tensor zero. -/
theorem C32_view_action_loses_first_row :
    ∃ R, mkIrrep p = some R ∧ ∀ tau, 1 ≤ tau → tau < n → ¬ PackedPairs R.tableaux tau →
      ∀ {K : Type} [DecidableEq K] (cols : List K), cols.Nodup → ∀ (X : Nat → K → ℝ),
        R.applyTauView cols tau X = none ∨
          ∃ Y, R.applyTauView cols tau X = some Y ∧ ∀ k ∈ cols, Y 0 k = 0 := by
  obtain ⟨R, hR, _, h⟩ := exists_repr hn hp
  refine ⟨R, hR, fun tau h1 h2 hk K _ cols hc X => ?_⟩
  rw [← h.packed_iff h1 h2] at hk
  cases hY : R.applyTauView cols (tau : Int) X with
  | none => exact Or.inl rfl
  | some Y => exact Or.inr ⟨Y, rfl, fun k hkc => h.view_gap h1 h2 hk cols hc X Y hY k hkc⟩

/-- **C32.** Exactly when the two actions agree. -/
theorem C32_view_action_iff :
    ∃ R, mkIrrep p = some R ∧ ((∀ (tau : Nat) (X : Nat → Nat × Nat → ℝ) (cols : List (Nat × Nat)), cols.Nodup →
        1 ≤ tau → tau < n → R.applyTauView cols tau X = R.applyTau cols tau X) ↔
      ∀ k, 1 ≤ k → k < n → PackedPairs R.tableaux k) := by
  obtain ⟨R, hR, _, h⟩ := exists_repr hn hp
  refine ⟨R, hR, fun hall k h1 h2 => ?_, fun hk tau X cols hc h1 h2 => ?_⟩
  · by_contra hk
    rw [← h.packed_iff h1 h2] at hk
    have P := h.pairing h1 h2
    have hd : 0 < R.d := by
      have := words_ne_nil hp
      rw [h.d_eq]
      exact List.length_pos_iff.2 this
    let cols : List (Nat × Nat) := [(0, 0)]
    have hc : cols.Nodup := by decide
    let X : Nat → Nat × Nat → ℝ := fun i _ => if i = 0 then 1 else 0
    have e1 := applyTau_eq (h.slotSpec h1 h2) cols hc X
    have e2 := hall k X cols hc h1 h2
    have e3 := h.view_gap h1 h2 hk cols hc X _ (e2.trans e1) (0, 0) (by simp [cols])
    unfold act at e3
    rw [dif_pos ⟨hd, by simp [cols]⟩] at e3
    have hz : R.co1 k 0 = 0 := by
      by_cases hq : R.partner k 0 = 0
      · rw [P.diag ⟨0, hd⟩ (fun j => X j (0, 0)) hq] at e3
        simpa [X] using e3
      · have hq0 := P.inv 0 hd
        have := (P.rot ⟨0, hd⟩ ⟨R.partner k 0, hq0.1⟩ (fun j => X j (0, 0)) rfl
          (fun e => hq (congrArg Fin.val e).symm)).1
        rw [this] at e3
        simpa [X, hq] using e3
    exact P.a_ne hd hz
  · rw [applyTau_eq (h.slotSpec h1 h2) cols hc X]
    exact h.view_packed (fun t ht1 ht2 => (h.packed_iff ht1 (h.n_eq ▸ ht2)).2 (hk t ht1 (h.n_eq ▸ ht2)))
      cols hc h1 h2 X

end

theorem packed_small : ∀ n ∈ List.range' 1 4, ∀ p ∈ partitions n, ∀ tau ∈ List.range' 1 (n - 1),
    ∀ i < (words n p).length, ∀ j < (words n p).length,
      i < partnerW (words n p) tau i → partnerW (words n p) tau j < j → i < j := by
  decide +kernel

theorem _root_.Snob.Repr'.allPacked_small {n : Nat} {p : List Nat} {hp : IsPartition n p} {R : IrrepObj}
    (h : Repr' hp R) (hn : 1 ≤ n) (h4 : n ≤ 4) : R.AllPacked := by
  intro tau h1 h2
  rw [h.n_eq] at h2
  rw [h.packed_words h1 h2]
  exact packed_small n (by rw [List.mem_range'_1]; omega) p ((mem_partitions n hn p).2 hp) tau
    (by rw [List.mem_range'_1]; omega)

/-- **C32.** For `n≤4` the two actions agree. -/
theorem C32_view_action_small (n : Nat) (hn : 1 ≤ n) (h4 : n ≤ 4) (p : List Nat) (hp : IsPartition n p) :
    ∃ R, mkIrrep p = some R ∧ ∀ {K : Type} [DecidableEq K] (cols : List K), cols.Nodup →
      ∀ (X : Nat → K → ℝ) (tau : Nat), 1 ≤ tau → tau < n →
        ∃ Y, R.applyTau cols tau X = some Y ∧ R.applyTauView cols tau X = some Y := by
  obtain ⟨R, hR, _, h⟩ := exists_repr hn hp
  exact ⟨R, hR, fun cols hc X tau h1 h2 => ⟨_, applyTau_eq (h.slotSpec h1 h2) cols hc X,
    h.view_packed (h.allPacked_small hn h4) cols hc h1 h2 X⟩⟩

theorem isPartition_32 : IsPartition 5 [3, 2] := ⟨by decide, by decide, by decide⟩
theorem isPartition_321 : IsPartition 6 [3, 2, 1] := ⟨by decide, by decide, by decide⟩

theorem not_packed_32 : ¬ ∀ i < (words 5 [3, 2]).length, ∀ j < (words 5 [3, 2]).length,
    i < partnerW (words 5 [3, 2]) 2 i → partnerW (words 5 [3, 2]) 2 j < j → i < j := by
  decide +kernel

/-- **C32.** The full statement is false: for the shape `[3,2]` the action of the transposition `(2,3)` on a
tensor view is not that on a matrix. -/
theorem C32_not_view_eq_matrix :
    ¬ ∀ (n : Nat) (p : List Nat) (R : IrrepObj), 1 ≤ n → IsPartition n p → mkIrrep p = some R →
      ∀ (tau : Nat) (X : Nat → Nat × Nat → ℝ) (cols : List (Nat × Nat)), cols.Nodup →
        1 ≤ tau → tau < n → R.applyTauView cols tau X = R.applyTau cols tau X := by
  intro hall
  obtain ⟨R, hR, hiff⟩ := C32_view_action_iff 5 (by omega) _ isPartition_32
  obtain ⟨R', hR', _, h⟩ := exists_repr (by omega) isPartition_32
  rw [hR] at hR'
  cases hR'
  have := hiff.1 (hall 5 _ R (by omega) isPartition_32 hR) 2 (by omega) (by omega)
  rw [← h.packed_iff (by omega) (by omega), h.packed_words (by omega) (by omega)] at this
  exact not_packed_32 this

/-- **C32.** For the shape `[3,2,1]` every call of `apply_left` on a tensor view writes outside the rotation
tables. -/
theorem C32_view_action_out_of_bounds :
    ∃ R, mkIrrep [3, 2, 1] = some R ∧ ∀ {K : Type} [DecidableEq K] (cols : List K) (X : Nat → K → ℝ) (tau : Int),
      R.applyTauView cols tau X = none := by
  obtain ⟨R, hR, _, h⟩ := exists_repr (n := 6) (by omega) isPartition_321
  refine ⟨R, hR, fun cols X tau => ?_⟩
  have hnone : computeYORtensors R.n R.tableaux = none := by
    by_contra hne
    obtain ⟨tabs, htabs⟩ := Option.ne_none_iff_exists'.1 hne
    unfold computeYORtensors at htabs
    rw [mapM_some_iff] at htabs
    obtain ⟨st, _, e2⟩ := htabs.2 1 2 (by rw [h.n_eq]; rfl)
    have P := h.pairing (tau := 2) (by omega) (by omega)
    rw [P.len, List.range_eq_range'] at e2
    obtain ⟨_, _, r3, _⟩ := P.loop_general R.d 0 _ (by omega)
      ⟨by simp, fun r hr => by simp [hr]⟩ rfl (by simp)
      (by
        intro k g hg
        rw [List.getElem?_replicate] at hg
        split at hg
        · cases hg; exact Or.inl rfl
        · cases hg) st e2
    have hd : R.d = 16 := by rw [h.d_eq]; decide +kernel
    have hq : ∀ i, i < 16 → R.partner 2 i = partnerW (words 6 [3, 2, 1]) 2 i := fun i hi =>
      h.partner_eq (tau := 2) (by omega) (by omega) (by omega)
    have hdg : diags (R.partner 2) 13 = diags (partnerW (words 6 [3, 2, 1]) 2) 13 := by
      unfold diags
      apply List.filter_congr
      intro r hr
      rw [hq r (by rw [List.mem_range] at hr; omega)]
    have := r3 13 (by omega) (by omega) (by
      show 13 < R.partner 2 13
      rw [hq 13 (by omega)]; decide +kernel)
    rw [hd] at this
    have hdg' : (diags (R.partner ((2 : Nat) : Int)) 13).length =
        (diags (partnerW (words 6 [3, 2, 1]) 2) 13).length := congrArg List.length hdg
    rw [hdg'] at this
    revert this
    decide +kernel
  unfold IrrepObj.applyTauView
  rw [hnone]
  split <;> rfl

/-! ### examples -/

example := C32_view_action_partial 5 (by omega) _ isPartition_32
example := C32_view_action_loses_first_row 5 (by omega) _ isPartition_32
example := C32_view_action_small 4 (by omega) (by omega) [2, 1, 1] ⟨by decide, by decide, by decide⟩

end Snob.Props
