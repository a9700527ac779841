import Verif.Props.FFT
import Verif.Proofs.FFTDims

/-! # Property C99: the vectors and functions that a transform takes and gives -/

namespace Snob.Props

open Snob Snob.Perm Snob.IP
open scoped Nat

/-- **C99.** A forward transform that ends has one part for each partition (with a first row of length at least `m`), in
listing order, labelled with its irrep and with as many rows and columns as it should have. This holds for every `n`,
also where the entries are wrong (C37, C40). -/
theorem C99_result (n m : Nat) (hm : 1 ≤ m) (hn : m < n) (f : Nat → ℝ) (ws : List VPart) (h : fftSnSm n m f = some ws) :
    HasShape (cosetCols m) (cosetShapes m n) ws := by
  unfold fftSnSm at h
  rw [Option.bind_eq_bind, Option.bind_eq_some_iff] at h
  obtain ⟨Ls, hLs, h⟩ := h
  exact (fftWith_dims (by omega) (by omega) hLs h).2 hn

/-- **C99.** The same for the transform on `Sn`. -/
theorem C99_result_sn (n : Nat) (hn : 2 ≤ n) (f : Nat → ℝ) (ws : List VPart) (h : fft n f = some ws) :
    HasShape allCols (partitions n) ws := by
  rw [← hasShape_one (by omega)]
  refine C99_result n 1 (by omega) (by omega) f ws ?_
  simpa [fft, fftSnSm] using h

/-- **C99.** If a transform on `Sn/Sm` is given a function with `N` values and returns a vector, then `N` is at least the
number of cosets and less than twice that. -/
theorem C99_number_of_values (n m : Nat) (hm : 1 ≤ m) (hn : m ≤ n) (Ls : List LevelT) (hLs : fftLevels n m = some Ls) (N : Nat) (f : Nat → ℝ)
    (h : fftWith viewAct Ls N f ≠ none) : snsmSize n m ≤ N ∧ N < 2 * snsmSize n m := by
  obtain ⟨ws, hws⟩ := Option.ne_none_iff_exists'.1 h
  have h1 := (fftWith_dims (by omega) hn hLs hws).1
  have hpos : 0 < n ! / m ! := Nat.div_pos (Nat.factorial_le hn) (Nat.factorial_pos _)
  rw [Nat.div_eq_iff hpos] at h1
  unfold snsmSize
  omega

/-- **C99.** `ClausenFFT(n)` does not return a vector for a function on another symmetric group. -/
theorem C99_other_group (n k : Nat) (hn : 1 ≤ n) (hk : 1 ≤ k) (hnk : n ≠ k) (Ls : List LevelT) (hLs : fftLevels n 1 = some Ls) (f : Nat → ℝ) :
    fftWith viewAct Ls (snSize k) f = none := by
  by_contra h
  obtain ⟨h1, h2⟩ := C99_number_of_values n 1 (Nat.le_refl 1) hn Ls hLs _ f h
  unfold snsmSize snSize at h1 h2
  rw [Nat.factorial_one, Nat.div_one] at h1 h2
  rcases Nat.lt_or_ge n k with hlt | hge
  · have h3 : (n + 1)! ≤ k ! := Nat.factorial_le hlt
    have h4 : 2 * n ! ≤ (n + 1)! := by
      rw [Nat.factorial_succ]
      exact Nat.mul_le_mul_right _ (by omega)
    omega
  · have h3 : (k + 1)! ≤ n ! := Nat.factorial_le (by omega)
    have h4 : 2 * k ! ≤ (k + 1)! := by
      rw [Nat.factorial_succ]
      exact Nat.mul_le_mul_right _ (by omega)
    have h5 := Nat.factorial_pos k
    omega

/-- **C99.** A vector made from a type: if the type lists exactly the partitions with a first row of length at least `m`,
each as often as its irrep has columns belonging to tableaux that start with `1..m`, the vector has the shape that
`inv_snsm` (or `inv`, for `m=1`) takes. A type is a map, so the order in which the partitions were entered does not
matter (`SnType.ofList`). -/
theorem C99_made_vector (n m : Nat) (hm : 1 ≤ m) (hn : m ≤ n) (t : SnType) (ht : TypeOk n t)
    (hp : ∀ x, x ∈ parts t ↔ x ∈ cosetShapes m n)
    (hc : ∀ x R, x ∈ cosetShapes m n → mkIrrep x = some R → mult t x = ((cosetCols m R).length : Nat)) :
    ∃ v, SnVec.zero t = some v ∧ HasShape (cosetCols m) (cosetShapes m n) v := by
  have hmem : ∀ x ∈ PL m n, IsPartition n x := fun x hx => ((mem_PL (by omega) x).1 hx).1
  have hsort : (PL m n).Pairwise LexGreater := (partitions_pairwise n).filter _
  have hparts : parts t = PL m n :=
    ((List.perm_ext_iff_of_nodup (ht.sorted.imp fun h => by rintro rfl; exact lexGreater_irrefl _ h)
      (hsort.imp fun h => by rintro rfl; exact lexGreater_irrefl _ h)).2 hp).eq_of_pairwise
      (fun a b _ _ h h' => absurd h' (lexGreater_asymm h)) ht.sorted hsort
  have hmult : ∀ x ∈ PL m n, mult t x = ((cosetCols m (irrOf x)).length : Nat) := fun x hx =>
    hc x _ hx (irrOf_spec (by omega) (hmem x hx)).1
  have hval : ∀ e ∈ t, e.2 = mult t e.1 := by
    intro e he
    have hnd : (parts t).Nodup := ht.sorted.imp fun h => by rintro rfl; exact lexGreater_irrefl _ h
    clear hmult hparts hc hp ht
    induction t with
    | nil => cases he
    | cons a t ih =>
      obtain ⟨k, v⟩ := a
      rw [mult_cons]
      simp only [parts, List.map_cons, List.nodup_cons] at hnd
      rcases List.mem_cons.1 he with rfl | he
      · simp
      · rw [if_neg, ih he hnd.2]
        intro h
        exact hnd.1 (h ▸ List.mem_map_of_mem he)
  have hget : ∀ (i : Nat) (e : List Nat × Int), t[i]? = some e → (PL m n)[i]? = some e.1 := by
    intro i e hi
    rw [← hparts]
    simp [parts, List.getElem?_map, hi]
  refine ⟨(PL m n).map fun x => mkP x (cosetCols m (irrOf x)).length fun _ _ => 0, ?_, by rw [List.length_map]; rfl, fun i x W hi hW => ?_⟩
  · unfold SnVec.zero
    rw [mapM_some_iff]
    refine ⟨by rw [List.length_map, ← hparts]; simp [parts], fun i e hi => ?_⟩
    have hx := hget i e hi
    have hxm := List.mem_of_getElem? hx
    refine ⟨_, by rw [List.getElem?_map, hx]; rfl, ?_⟩
    rw [hval e (List.mem_of_getElem? hi), hmult _ hxm]
    exact zero_eq (by omega) (hmem _ hxm) _
  · rw [List.getElem?_map] at hW
    have hi' : (PL m n)[i]? = some x := hi
    rw [hi'] at hW
    obtain rfl := Option.some.inj hW
    exact ⟨(irrOf_spec (by omega) (hmem x (List.mem_of_getElem? hi'))).1, rfl, rfl⟩

/-- **C99.** The same for `Sn`: every partition as often as its dimension. -/
theorem C99_made_vector_sn (n : Nat) (hn : 1 ≤ n) (t : SnType) (ht : TypeOk n t) (hp : ∀ x, IsPartition n x → x ∈ parts t)
    (hc : ∀ x R, IsPartition n x → mkIrrep x = some R → mult t x = (R.d : Nat)) :
    ∃ v, SnVec.zero t = some v ∧ HasShape allCols (partitions n) v := by
  obtain ⟨v, h1, h2⟩ := C99_made_vector n 1 (Nat.le_refl 1) hn t ht
    (fun x => by
      rw [show cosetShapes 1 n = partitions n from PL_one n hn, mem_partitions n hn]
      exact ⟨ht.all x, hp x⟩)
    (fun x R hx hR => by
      rw [show cosetShapes 1 n = partitions n from PL_one n hn, mem_partitions n hn] at hx
      obtain ⟨R', hR', -, hrep⟩ := exists_repr hn hx
      obtain rfl : R = R' := Option.some.inj (hR.symm.trans hR')
      rw [hc x R hx hR]
      show _ = (((startCols 1 R.tableaux).length : Nat) : Int)
      rw [hrep.startCols_one hn, List.length_range])
  exact ⟨v, h1, (hasShape_one hn v).1 h2⟩

/-- Not vacuous: the type `[2,1]:2, [1,1,1]:1, [3]:1`, entered in this order, gives a vector that `inv` takes. -/
example : ∃ t v f, SnType.ofList [([2, 1], 2), ([1, 1, 1], 1), ([3], 1)] [] = some t ∧ SnVec.zero t = some v ∧ ifft 3 v = some f := by
  have hp3 : ∀ x, IsPartition 3 x ↔ x = [3] ∨ x = [2, 1] ∨ x = [1, 1, 1] := by
    intro x
    rw [← mem_partitions 3 (by omega), show partitions 3 = [[3], [2, 1], [1, 1, 1]] from by decide +kernel]
    simp
  have hd : ∀ (x : List Nat) (R : IrrepObj), IsPartition 3 x → mkIrrep x = some R → R.d = (words 3 x).length := by
    intro x R hx hR
    obtain ⟨R', hR', -, hrep⟩ := exists_repr (by omega) hx
    obtain rfl : R = R' := Option.some.inj (hR.symm.trans hR')
    exact hrep.d_eq
  have ht : TypeOk 3 [([3], 1), ([2, 1], 2), ([1, 1, 1], 1)] := by
    refine ⟨fun x hx => (hp3 x).2 (by simpa [parts] using hx), ?_⟩
    have := partitions_pairwise 3
    rwa [show partitions 3 = parts [([3], 1), ([2, 1], 2), ([1, 1, 1], 1)] from by decide +kernel] at this
  obtain ⟨v, h1, h2⟩ := C99_made_vector_sn 3 (by omega) [([3], 1), ([2, 1], 2), ([1, 1, 1], 1)] ht
    (fun x hx => by rcases (hp3 x).1 hx with rfl | rfl | rfl <;> simp [parts])
    (fun x R hx hR => by
      rw [hd x R hx hR]
      rcases (hp3 x).1 hx with rfl | rfl | rfl <;> decide +kernel)
  obtain ⟨g, _, h3, _⟩ := C38_forward_after_inverse_partial 3 (by omega) (by omega) v h2
  exact ⟨_, v, _, by decide +kernel, h1, h3⟩

end Snob.Props
