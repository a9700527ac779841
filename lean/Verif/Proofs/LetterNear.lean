import Verif.Proofs.LetterClose
import Verif.Spec.LetterNear

/-! Inputs with errors as the start of three runs (property C143). -/

namespace Snob

open SnVec

variable {n m : Nat}

/-- one input -/
theorem floats3_given {δ : ℝ} {x y a : SnVec} (h : GivenFor m δ x y a) :
    ∃ d, Floats3 (fun x y a => |x| ≤ a ∧ |y - x| ≤ δ * a) (m + d) (x, y, a) := by
  obtain ⟨n, hn, o1, o2, o3, hb, l1, l2, hw⟩ := h
  obtain ⟨d, rfl⟩ := Nat.exists_eq_add_of_le hn
  have at' : ∀ {k : Nat} {P : VPart}, x[k]? = some P → ∃ Q A, y[k]? = some Q ∧ a[k]? = some A := by
    intro k P hP
    have := (List.getElem?_eq_some_iff.1 hP).1
    exact ⟨y[k], a[k], List.getElem?_eq_getElem (by omega), List.getElem?_eq_getElem (by omega)⟩
  have k2 : vkeys y = vkeys x := by
    refine List.ext_getElem (by simp [vkeys, l1]) fun k h1 h2 => ?_
    simp only [vkeys, List.length_map] at h1 h2
    have := (hw k x[k] y[k] a[k] (List.getElem?_eq_getElem h2) (List.getElem?_eq_getElem h1) (List.getElem?_eq_getElem (by omega))).1.1
    simpa [vkeys] using this
  have k3 : vkeys a = vkeys x := by
    refine List.ext_getElem (by simp [vkeys, l2]) fun k h1 h2 => ?_
    simp only [vkeys, List.length_map] at h1 h2
    have := (hw k x[k] y[k] a[k] (List.getElem?_eq_getElem h2) (List.getElem?_eq_getElem (by omega)) (List.getElem?_eq_getElem h1)).2.1.1
    simpa [vkeys] using this
  have parts : ∀ z ∈ vkeys x, ∃ k : Nat, x[k]? = some (partAt x z) ∧ y[k]? = some (partAt y z) ∧ a[k]? = some (partAt a z) := by
    intro z hz
    obtain ⟨k, -, h1, -, h2, h3⟩ := index_partAt o1 hz
    obtain ⟨Q, A, hQ, hA⟩ := at' h1
    obtain ⟨e1, e2, -⟩ := hw k _ Q A h1 hQ hA
    have q : partAt y z = Q := by
      have := partAt_of_mem o2.nodup (List.mem_of_getElem? hQ)
      rwa [e1.1, h3] at this
    have q' : partAt a z = A := by
      have := partAt_of_mem o3.nodup (List.mem_of_getElem? hA)
      rwa [e2.1, h3] at this
    exact ⟨k, h1, by rw [q]; exact hQ, by rw [q']; exact hA⟩
  refine ⟨d, Floats3.of (K := vkeys x) ⟨o1, o2, o3, rfl, k2, k3, fun z hz => ?_, fun z hz => ?_, fun z hz i hi j hj => ?_⟩⟩
  · obtain ⟨k, h1, h2, h3⟩ := parts z hz
    exact (hw k _ _ _ h1 h2 h3).1.2.2
  · obtain ⟨k, h1, h2, h3⟩ := parts z hz
    exact (hw k _ _ _ h1 h2 h3).2.1.2.2
  · obtain ⟨k, h1, h2, h3⟩ := parts z hz
    have hi' : i < (partAt x z).d := by rw [partAt_d o1 hz]; exact hi
    exact ⟨hb k _ _ h1 h3 i hi' j hj, (hw k _ _ _ h1 h2 h3).2.2 i hi' j hj⟩

/-- three lists as a list of triples -/
theorem zip3 {xs ys as : List SnVec} (h1 : ys.length = xs.length) (h2 : as.length = xs.length) :
    (xs.zip (ys.zip as)).map (fun q => q.1) = xs ∧ (xs.zip (ys.zip as)).map (fun q => q.2.1) = ys ∧
    (xs.zip (ys.zip as)).map (fun q => q.2.2) = as := by
  have e : (xs.zip (ys.zip as)).map Prod.snd = ys.zip as := List.map_snd_zip (by simp [h1, h2])
  refine ⟨List.map_fst_zip (by simp [h1, h2]), ?_, ?_⟩
  · rw [show (fun q : SnVec × SnVec × SnVec => q.2.1) = Prod.fst ∘ Prod.snd from rfl, ← List.map_map, e]
    exact List.map_fst_zip (by omega)
  · rw [show (fun q : SnVec × SnVec × SnVec => q.2.2) = Prod.snd ∘ Prod.snd from rfl, ← List.map_map, e]
    exact List.map_snd_zip (by omega)

theorem floats3_given_all {δ : ℝ} {xs ys as : List SnVec} (h : AllGiven m δ xs ys as) :
    ∀ q ∈ xs.zip (ys.zip as), ∃ d, Floats3 (fun x y a => |x| ≤ a ∧ |y - x| ≤ δ * a) (m + d) q := by
  intro q hq
  obtain ⟨i, hi⟩ := List.mem_iff_getElem?.1 hq
  obtain ⟨e1, e2, e3⟩ := zip3 h.1 h.2.1
  have f1 : xs[i]? = some q.1 := by
    have : ((xs.zip (ys.zip as)).map fun q => q.1)[i]? = some q.1 := by rw [List.getElem?_map, hi]; rfl
    rwa [e1] at this
  have f2 : ys[i]? = some q.2.1 := by
    have : ((xs.zip (ys.zip as)).map fun q => q.2.1)[i]? = some q.2.1 := by rw [List.getElem?_map, hi]; rfl
    rwa [e2] at this
  have f3 : as[i]? = some q.2.2 := by
    have : ((xs.zip (ys.zip as)).map fun q => q.2.2)[i]? = some q.2.2 := by rw [List.getElem?_map, hi]; rfl
    rwa [e3] at this
  exact floats3_given (h.2.2 i _ _ _ f1 f2 f3)

end Snob
