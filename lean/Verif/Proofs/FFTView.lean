import Verif.Proofs.FFTSpec
import Verif.Props.View

/-! # When the tensor-view action is good enough for the transform -/

namespace Snob

open IP Snob.Perm
open scoped Nat

/-- a word with at most one nonzero letter that is changed by an exchange -/
theorem single_form {u : List Nat} {tau : Nat} (h1 : 1 ≤ tau) (h2 : tau < u.length) (hc : u.length - 1 ≤ u.count 0)
    (hs : swapWord tau u ≠ u) :
    ∃ a b, (a = 0 ∧ b ≠ 0 ∨ a ≠ 0 ∧ b = 0) ∧
      u = List.replicate (u.length - tau - 1) 0 ++ b :: a :: List.replicate (tau - 1) 0 := by
  have hsplit := List.take_append_drop (u.length - tau - 1) u
  have hlv : (u.take (u.length - tau - 1)).length = u.length - tau - 1 := by rw [List.length_take]; omega
  have hld : (u.drop (u.length - tau - 1)).length = tau + 1 := by rw [List.length_drop]; omega
  unfold swapWord at hs
  generalize u.take (u.length - tau - 1) = v at *
  generalize hD : u.drop (u.length - tau - 1) = D at *
  rcases D with _ | ⟨b, _ | ⟨a, x⟩⟩
  · simp at hld
  · simp at hld; omega
  · have hlx : x.length = tau - 1 := by simp at hld; omega
    simp only at hs
    have hab : a ≠ b := by
      rintro rfl
      exact hs hsplit
    rw [← hsplit] at hc
    simp only [List.count_append, List.count_cons, List.length_append, List.length_cons] at hc
    have k1 := List.count_le_length (a := 0) (l := v)
    have k2 := List.count_le_length (a := 0) (l := x)
    have hv : v.count 0 = v.length ∧ x.count 0 = x.length ∧ (a = 0 ∧ b ≠ 0 ∨ a ≠ 0 ∧ b = 0) := by
      by_cases ea : a = 0 <;> by_cases eb : b = 0 <;> simp [ea, eb] at hc ⊢
      · exact hab (ea.trans eb.symm)
      · omega
      · omega
      · omega
    refine ⟨a, b, hv.2.2, ?_⟩
    have e1 : v = List.replicate (u.length - tau - 1) 0 := by
      rw [List.eq_replicate_iff]
      exact ⟨hlv, fun y hy => ((List.count_eq_length.1 hv.1) y hy).symm⟩
    have e2 : x = List.replicate (tau - 1) 0 := by
      rw [List.eq_replicate_iff]
      exact ⟨hlx, fun y hy => ((List.count_eq_length.1 hv.2.1) y hy).symm⟩
    conv_lhs => rw [← hsplit, e1, e2]

/-- if all but one box lie in the first row then the pairs are packed -/
theorem packed_hook {n : Nat} {p : List Nat} (hp : IsPartition n p) (hr : n ≤ row p 0 + 1) {tau : Nat} (h1 : 1 ≤ tau) (h2 : tau < n) :
    ∀ i < (words n p).length, ∀ j < (words n p).length,
      i < partnerW (words n p) tau i → partnerW (words n p) tau j < j → i < j := by
  intro i hi j hj h3 h4
  have hform : ∀ k (hk : k < (words n p).length), partnerW (words n p) tau k ≠ k →
      swapWord tau (words n p)[k] ∈ words n p ∧ partnerW (words n p) tau k = (words n p).idxOf (swapWord tau (words n p)[k]) ∧
      ((words n p)[k] = List.replicate (n - tau - 1) 0 ++ 1 :: 0 :: List.replicate (tau - 1) 0 ∨
       (words n p)[k] = List.replicate (n - tau - 1) 0 ++ 0 :: 1 :: List.replicate (tau - 1) 0) := by
    intro k hk hne
    unfold partnerW at hne ⊢
    rw [List.getElem?_eq_getElem hk] at hne ⊢
    simp only at hne ⊢
    by_cases hlt : (words n p).idxOf (swapWord tau (words n p)[k]) < (words n p).length
    · rw [if_pos hlt] at hne ⊢
      refine ⟨List.idxOf_lt_length_iff.1 hlt, rfl, ?_⟩
      have hm := List.getElem_mem hk
      have hsw : swapWord tau (words n p)[k] ≠ (words n p)[k] := by
        intro e
        rw [e, List.Nodup.idxOf_getElem (words_nodup hp)] at hne
        exact hne rfl
      generalize (words n p)[k] = u at *
      obtain ⟨hlat, hcnt⟩ := (mem_words hp u).1 hm
      have hlen := word_length hp hm
      obtain ⟨a, b, hab, hu⟩ := single_form h1 (by omega) (by rw [hcnt 0, hlen]; omega) hsw
      rw [hlen] at hu
      -- the nonzero letter is one
      have hone : ∀ c, c ∈ u → c ≠ 0 → c = 1 := by
        intro c hc hc0
        have h5 : 0 < row p c := by rw [← hcnt c]; exact List.count_pos_iff.2 hc
        have h6 : 0 < row p 1 := lt_of_lt_of_le h5 (row_anti hp.sorted (by omega))
        rw [← hcnt 1] at h6
        have h7 := List.count_pos_iff.1 h6
        rw [hu] at h7 hc
        simp only [List.mem_append, List.mem_cons, List.mem_replicate] at h7 hc
        omega
      rcases hab with ⟨rfl, hb⟩ | ⟨ha, rfl⟩
      · obtain rfl := hone b (by rw [hu]; simp) hb
        exact Or.inl hu
      · obtain rfl := hone a (by rw [hu]; simp) ha
        exact Or.inr hu
    · rw [if_neg hlt] at hne
      exact absurd rfl hne
  have hsw : ∀ a b, swapWord tau (List.replicate (n - tau - 1) 0 ++ b :: a :: List.replicate (tau - 1) 0) =
      List.replicate (n - tau - 1) 0 ++ a :: b :: List.replicate (tau - 1) 0 := by
    intro a b
    have := swapWord_eq (List.replicate (n - tau - 1) 0) (List.replicate (tau - 1) 0) a b
    rw [List.length_replicate, Nat.sub_add_cancel h1] at this
    exact this
  have hnd := words_nodup hp
  obtain ⟨-, e1, f1⟩ := hform i hi (by omega)
  obtain ⟨-, e2, f2⟩ := hform j hj (by omega)
  have hcase : (words n p)[i] = (words n p)[j] ∨ swapWord tau (words n p)[i] = (words n p)[j] := by
    rcases f1 with f1 | f1 <;> rcases f2 with f2 | f2 <;> rw [f1, f2]
    · exact Or.inl rfl
    · exact Or.inr (hsw 0 1)
    · exact Or.inr (hsw 1 0)
    · exact Or.inl rfl
  rcases hcase with h | h
  · have : i = j := (hnd.getElem_inj_iff).1 h
    subst this
    omega
  · rw [h, hnd.idxOf_getElem] at e1
    omega

theorem viewAct_ok {m l : Nat} (hl : 1 ≤ l) (h : l ≤ 4 ∨ l ≤ m + 1) : ActOk viewAct m l := by
  intro p hp R hR hm cols hc
  refine hR.genView ?_ cols hc
  rcases h with h | h
  · exact hR.allPacked_small hl h
  · intro tau h1 h2
    rw [hR.n_eq] at h2
    rw [hR.packed_words h1 h2]
    exact packed_hook hp (by omega) h1 h2

end Snob
