import Verif.Proofs.CountLoop
import Verif.Props.FFT
import Verif.Props.FFTFive

/-! # Property C115: the number of operations of the fast Fourier transform -/

namespace Snob.Props

open Snob Snob.Perm Snob.IP
open scoped Nat

theorem costs_some {α : Type} {x : Cnt α} {y : Option α} {k : Nat} {Q : α → Prop} (h : Costs x y k Q) {a : α} (ha : y = some a) :
    ∃ c, x = some (a, c) ∧ c ≤ k := by
  have hv := h.value
  rw [ha] at hv
  cases x with
  | none => cases hv
  | some r =>
    obtain ⟨b, c⟩ := r
    obtain rfl := Option.some.inj hv
    exact ⟨c, rfl, (h.le _ _ rfl).1⟩

theorem up_total {m n c : Nat} (hm : 1 ≤ m) (hn : m ≤ n) (h : c ≤ n ! / m ! * ∑ k ∈ Finset.Ico m n, upOps k) :
    2 * c + n ! / m ! * ((m - 1) * (m + 1) * (m + 2)) ≤ n ! / m ! * ((n - 1) * (n + 1) * (n + 2)) := by
  rw [← sum_upOps hm hn, Nat.mul_add]
  nlinarith

theorem down_total {m n c : Nat} (hm : 1 ≤ m) (hn : m ≤ n) (h : c ≤ n ! / m ! * ∑ k ∈ Finset.Ico m n, downOps k) :
    2 * c + n ! / m ! * ((m - 1) * (m * m + 3 * m + 6)) ≤ n ! / m ! * ((n - 1) * (n * n + 3 * n + 6)) := by
  rw [← sum_downOps hm hn, Nat.mul_add]
  nlinarith

theorem fast_lt {n : Nat} (hn : 4 ≤ n) : (n - 1) * (n + 1) * (n + 2) + 2 < 2 * (2 * n !) := by
  induction n, hn using Nat.le_induction with
  | base => decide
  | succ n hn ih =>
    rw [Nat.factorial_succ]
    obtain ⟨k, rfl⟩ : ∃ k, n = k + 1 := ⟨n - 1, by omega⟩
    simp only [Nat.add_sub_cancel] at *
    have h : (k + 1 + 1) * (k * (k + 1 + 1) * (k + 1 + 2) + 2) < (k + 1 + 1) * (2 * (2 * (k + 1)!)) := Nat.mul_lt_mul_of_pos_left ih (by omega)
    have h2 : 3 * (k * (k + 1 + 1) * (k + 1 + 2)) ≤ (k + 1 + 1) * (k * (k + 1 + 1) * (k + 1 + 2)) := Nat.mul_le_mul_right _ (by omega)
    have h3 : (k + 1) * (k + 1 + 1 + 1) * (k + 1 + 1 + 2) ≤ 3 * (k * (k + 1 + 1) * (k + 1 + 2)) := by nlinarith
    have e : (k + 1 + 1) * (2 * (2 * (k + 1)!)) = 2 * (2 * ((k + 1 + 1) * (k + 1)!)) := by ring
    nlinarith

section
variable (n m : Nat) (hm : 1 ≤ m) (hn : m ≤ n) (f : Nat → ℝ)
include hm hn

/-- the forward transform with an action on views that costs at most three operations for each entry -/
theorem count_forward (apC : ViewActC) (ap : ViewAct) (hap : ∀ k, CostOk apC ap k) {Ls : List LevelT} (hLs : fftLevels n m = some Ls) :
    (fftWithC apC Ls (snsmSize n m) f).value = fftWith ap Ls (snsmSize n m) f ∧
      ∀ ws c, fftWithC apC Ls (snsmSize n m) f = some (ws, c) →
        2 * c + snsmSize n m * ((m - 1) * (m + 1) * (m + 2)) ≤ snsmSize n m * ((n - 1) * (n + 1) * (n + 2)) := by
  have h := fftWithC_costs (apC := apC) (ap := ap) hm (fun k _ _ => hap k) hn hLs f
  exact ⟨h.value, fun ws c e => up_total hm hn (h.le _ _ e).1⟩

theorem count_backward (apC : ViewActC) (ap : ViewAct) (hap : ∀ k, CostOk apC ap k) {Ls : List LevelT} (hLs : fftLevels n m = some Ls)
    (ws : List VPart) (hs : HasShape (cosetCols m) (cosetShapes m n) ws) :
    (ifftWithC apC Ls ws).value = ifftWith ap Ls ws ∧
      ∀ g c, ifftWithC apC Ls ws = some (g, c) →
        2 * c + snsmSize n m * ((m - 1) * (m * m + 3 * m + 6)) ≤ snsmSize n m * ((n - 1) * (n * n + 3 * n + 6)) := by
  have h := ifftWithC_costs (apC := apC) (ap := ap) hm (fun k _ _ => hap k) hn hLs hs
  exact ⟨h.value, fun ws c e => down_total hm hn (h.le _ _ e).1⟩

/-- **C115.** A transform of a function on `Sn/Sm` has as many entries as the function has values. -/
theorem C115_entries (ws : List VPart) (hs : HasShape (cosetCols m) (cosetShapes m n) ws) :
    (ws.map fun W => W.d * W.m).sum = snsmSize n m := by
  show _ = n ! / (m !)
  rw [← sum_size (by omega) hn]
  have h : List.Forall₂ (fun (p : List Nat) (W : VPart) => W.d * W.m = dimW n p * (colW m n p).length) (PL m n) ws := by
    rw [List.forall₂_iff_get]
    refine ⟨hs.1.symm, fun i h1 h2 => ?_⟩
    have hi : (PL m n)[i]? = some ((PL m n).get ⟨i, h1⟩) := List.getElem?_eq_getElem h1
    obtain ⟨k1, k2, k3⟩ := hs.2 i _ _ hi (List.getElem?_eq_getElem h2)
    obtain ⟨hp, -⟩ := (mem_PL (by omega) _).1 (List.mem_of_getElem? hi)
    obtain ⟨R, hR, -, hrep⟩ := exists_repr (by omega) hp
    obtain rfl : R = (ws[i]).irrep := Option.some.inj (hR.symm.trans k1)
    show (ws[i]).d * (ws[i]).m = _
    have k3' : (ws[i]).m = (startCols m (ws[i]).irrep.tableaux).length := k3
    have k2' : (ws[i]).d = (ws[i]).irrep.d := k2
    rw [k2', k3', irrep_d (by omega) hp hR, hrep.startCols_length hn]
  clear hs
  revert h
  generalize PL m n = S
  intro h
  induction h with
  | nil => rfl
  | cons h _ ih => rw [List.map_cons, List.map_cons, List.sum_cons, List.sum_cons, h, ih]

/-- **C115.** The forward transform on `Sn/Sm` with the action of the irreps used for matrices returns the transform after at most
`(n!/m!)((n-1)(n+1)(n+2)-(m-1)(m+1)(m+2))/2` operations on `float`. -/
theorem C115_fft_snsm_reference :
    ∃ Ls ws c, fftLevels n m = some Ls ∧ fftWithC matActC Ls (snsmSize n m) f = some (ws, c) ∧ fftWith matAct Ls (snsmSize n m) f = some ws ∧
      2 * c + snsmSize n m * ((m - 1) * (m + 1) * (m + 2)) ≤ snsmSize n m * ((n - 1) * (n + 1) * (n + 2)) := by
  obtain ⟨Ls, ws, h1, h2, -⟩ := fftWith_eq (ap := matAct) f hm hn (fun k _ _ => matAct_ok m k)
  obtain ⟨k1, k2⟩ := count_forward n m hm hn f matActC matAct matActC_ok h1
  have h := fftWithC_costs (apC := matActC) (ap := matAct) hm (fun k _ _ => matActC_ok k) hn h1 f
  obtain ⟨c, hc, -⟩ := costs_some h h2
  exact ⟨Ls, ws, c, h1, hc, h2, k2 _ _ hc⟩

/-- **C115.** The forward transform on `Sn/Sm` as coded: the counted program computes the same, and if it returns it has done at most
`(n!/m!)((n-1)(n+1)(n+2)-(m-1)(m+1)(m+2))/2` operations. -/
theorem C115_fft_snsm :
    (fftSnSmC n m f).value = fftSnSm n m f ∧ ∀ ws c, fftSnSmC n m f = some (ws, c) →
      2 * c + snsmSize n m * ((m - 1) * (m + 1) * (m + 2)) ≤ snsmSize n m * ((n - 1) * (n + 1) * (n + 2)) := by
  obtain ⟨Ls, h1, -, -⟩ := fftLevels_ok (n := n) (m := m) hm hn
  obtain ⟨k1, k2⟩ := count_forward n m hm hn f viewActC viewAct viewActC_ok h1
  have e : fftSnSmC n m f = Cnt.andThen (Cnt.free (some Ls)) fun levels => fftWithC viewActC levels (snsmSize n m) f := by
    unfold fftSnSmC; rw [h1]; rfl
  have e2 : fftSnSmC n m f = fftWithC viewActC Ls (snsmSize n m) f := by
    rw [e]
    unfold Cnt.andThen Cnt.free
    simp only
    cases fftWithC viewActC Ls (snsmSize n m) f with
    | none => rfl
    | some r => simp; rfl
  rw [e2]
  refine ⟨?_, k2⟩
  rw [k1]
  unfold fftSnSm
  rw [h1]; rfl

end

section
variable (n : Nat) (hn : 1 ≤ n) (f : Nat → ℝ)
include hn

/-- **C115.** The forward transform on `Sn` with the action of the irreps used for matrices returns the transform after at most
`n!(n-1)(n+1)(n+2)/2` operations; for `n≥4` this is less than the `n!(2n!-1)` operations of the defining sums. -/
theorem C115_fft_reference :
    ∃ Ls ws c, fftLevels n 1 = some Ls ∧ fftWithC matActC Ls (snSize n) f = some (ws, c) ∧ fftWith matAct Ls (snSize n) f = some ws ∧
      2 * c ≤ snSize n * ((n - 1) * (n + 1) * (n + 2)) ∧ (4 ≤ n → c < snSize n * (2 * snSize n - 1)) := by
  obtain ⟨Ls, ws, c, h1, h2, h3, h4⟩ := C115_fft_snsm_reference n 1 (le_refl 1) hn f
  have e : snsmSize n 1 = snSize n := by unfold snsmSize snSize; simp
  rw [e] at h2 h3 h4
  refine ⟨Ls, ws, c, h1, h2, h3, by simpa using h4, fun h => ?_⟩
  have h5 := fast_lt h
  have hpos : 0 < n ! := Nat.factorial_pos n
  have h6 : 2 * c ≤ n ! * ((n - 1) * (n + 1) * (n + 2)) := by simpa [snSize] using h4
  have h7 : n ! * ((n - 1) * (n + 1) * (n + 2)) < n ! * (2 * (2 * (n !) - 1)) := Nat.mul_lt_mul_of_pos_left (by omega) hpos
  have h8 : n ! * (2 * (2 * (n !) - 1)) = 2 * (n ! * (2 * (n !) - 1)) := by ring
  show c < n ! * (2 * (n !) - 1)
  omega

/-- **C115.** The forward transform on `Sn` as coded: the counted program computes the same, and if it returns it has done at most
`n!(n-1)(n+1)(n+2)/2` operations. For `n≤5` it returns. -/
theorem C115_fft :
    (fftC n f).value = fft n f ∧ (∀ ws c, fftC n f = some (ws, c) → 2 * c ≤ snSize n * ((n - 1) * (n + 1) * (n + 2))) ∧
      (n ≤ 5 → fftC n f ≠ none) := by
  have e1 : fftC n f = fftSnSmC n 1 f := by
    unfold fftC fftSnSmC
    rw [Nat.factorial_one, Nat.div_one]
  obtain ⟨h1, h2⟩ := C115_fft_snsm n 1 (le_refl 1) hn f
  have e : snsmSize n 1 = snSize n := by unfold snsmSize snSize; simp
  rw [e1, fft_eq_snsm]
  refine ⟨h1, fun ws c hc => ?_, fun h5 h => ?_⟩
  · have := h2 ws c hc
    rw [e] at this
    simpa using this
  · obtain ⟨ws, h3, -⟩ := C37_fft_defined n hn h5 f
    rw [fft_eq_snsm, ← h1, h] at h3
    cases h3

/-- **C115.** The inverse transform on `Sn` with the action of the irreps used for matrices returns a function after at most
`n!(n-1)(n²+3n+6)/2` operations. -/
theorem C115_inverse_reference (ws : List VPart) (hs : HasShape allCols (partitions n) ws) :
    ∃ Ls g c, fftLevels n 1 = some Ls ∧ ifftWithC matActC Ls ws = some ((snSize n, g), c) ∧ ifftWith matAct Ls ws = some (snSize n, g) ∧
      2 * c ≤ snSize n * ((n - 1) * (n * n + 3 * n + 6)) := by
  have hs' := (hasShape_one hn ws).2 hs
  obtain ⟨Ls, g, h1, h3⟩ : ∃ Ls g, fftLevels n 1 = some Ls ∧ ifftWith matAct Ls ws = some (snsmSize n 1, g) := by
    obtain ⟨Ls, g, h1, -, h3, -⟩ := ifft_spec (ap := matAct) (n := n) (m := 1) (le_refl 1) (by omega) (fun k _ _ => matAct_ok 1 k) hs'
    exact ⟨Ls, g, h1, h3⟩
  have h := ifftWithC_costs (apC := matActC) (ap := matAct) (le_refl 1) (fun k _ _ => matActC_ok k) hn h1 hs'
  obtain ⟨c, hc, -⟩ := costs_some h h3
  obtain ⟨-, k2⟩ := count_backward n 1 (le_refl 1) hn matActC matAct matActC_ok h1 ws hs'
  have e : snsmSize n 1 = snSize n := by unfold snsmSize snSize; simp
  have := k2 _ _ hc
  rw [e] at hc h3 this
  exact ⟨Ls, g, c, h1, hc, h3, by simpa using this⟩

/-- **C115.** The inverse transform on `Sn` as coded: the counted program computes the same on a vector of the right shape, and if it
returns it has done at most `n!(n-1)(n²+3n+6)/2` operations. -/
theorem C115_inverse (ws : List VPart) (hs : HasShape allCols (partitions n) ws) :
    (ifftC n ws).value = ifft n ws ∧ ∀ g c, ifftC n ws = some (g, c) → 2 * c ≤ snSize n * ((n - 1) * (n * n + 3 * n + 6)) := by
  have hs' := (hasShape_one hn ws).2 hs
  obtain ⟨Ls, h1, -, -⟩ := fftLevels_ok (n := n) (m := 1) (le_refl 1) hn
  obtain ⟨k1, k2⟩ := count_backward n 1 (le_refl 1) hn viewActC viewAct viewActC_ok h1 ws hs'
  have h : Costs (ifftC n ws) (ifft n ws) (n ! / 1 ! * ∑ k ∈ Finset.Ico 1 n, downOps k) fun _ => True := by
    unfold ifftC ifft
    rw [h1]
    refine (Costs.bind (Costs.free (Q := fun l => l = Ls) fun l hl => (Option.some.inj hl).symm) fun l hl => ?_).mono'
      (k := 0 + (n ! / 1 ! * ∑ k ∈ Finset.Ico 1 n, downOps k + 0)) (by omega)
    subst hl
    exact Costs.bind (ifftWithC_costs (apC := viewActC) (ap := viewAct) (le_refl 1) (fun k _ _ => viewActC_ok k) hn h1 hs')
      fun r _ => Costs.pure trivial
  have e : snsmSize n 1 = snSize n := by unfold snsmSize snSize; simp
  refine ⟨h.value, fun g c hc => ?_⟩
  have := down_total (le_refl 1) hn (h.le _ _ hc).1
  have e2 : n ! / 1 ! = snSize n := e
  rw [e2] at this
  simpa using this

end

/-- **C115.** Multiplying a matrix with `J` columns by the matrix of a permutation (`apply_left`) takes at most `3n(n-1)/2` operations for
each of the `d·J` entries. -/
theorem C115_apply_left {K : Type} [DecidableEq K] {n : Nat} {p : List Nat} (hn : 1 ≤ n) (hp : IsPartition n p) (cols : List K) (hc : cols.Nodup)
    (a : Arr) (ha : IsPerm n a) (X : Nat → K → ℝ) :
    ∃ R A Y c, mkIrrep p = some R ∧ R.eval a = some A ∧ R.applySigmaC cols a X = some (Y, c) ∧ R.applySigma cols a X = some Y ∧
      LeftMul R.d A cols X Y ∧ 2 * c ≤ 3 * (n * (n - 1)) * (R.d * cols.length) := by
  obtain ⟨R, A, Y, h1, h2, h3, h4⟩ := C25_apply_left n hn p hp cols hc a ha X
  obtain ⟨σ, rfl⟩ := ha
  obtain ⟨R', hR', -, hrep⟩ := exists_repr hn hp
  obtain rfl : R' = R := Option.some.inj (hR'.symm.trans h1)
  obtain ⟨c, hc', hle⟩ := costs_some (applySigmaC_costs hrep cols σ X) h3
  refine ⟨R', A, Y, c, h1, h2, hc', h3, h4, ?_⟩
  have h5 := Nat.mul_le_mul_right (3 * (R'.d * cols.length)) (Nat.div_mul_le_self (n * (n - 1)) 2)
  calc 2 * c ≤ 2 * (n * (n - 1) / 2 * (3 * (R'.d * cols.length))) := Nat.mul_le_mul_left 2 hle
    _ = n * (n - 1) / 2 * 2 * (3 * (R'.d * cols.length)) := by ring
    _ ≤ n * (n - 1) * (3 * (R'.d * cols.length)) := h5
    _ = 3 * (n * (n - 1)) * (R'.d * cols.length) := by ring

/-! ### examples -/

-- on `S9` the forward transform takes at most 440 operations for each of the 9! values
example (f : Nat → ℝ) : ∃ Ls ws c, fftLevels 9 1 = some Ls ∧ fftWithC matActC Ls (snSize 9) f = some (ws, c) ∧ c ≤ 440 * 362880 := by
  obtain ⟨Ls, ws, c, h1, h2, -, h3, -⟩ := C115_fft_reference 9 (by omega) f
  have : snSize 9 = 362880 := by decide
  rw [this] at h3
  exact ⟨Ls, ws, c, h1, h2, by omega⟩
-- as coded on `S4`: at most 1080 operations
example (f : Nat → ℝ) : ∃ r, fftC 4 f = some r ∧ r.2 ≤ 1080 := by
  obtain ⟨-, h1, h2⟩ := C115_fft 4 (by omega) f
  obtain ⟨r, hr⟩ := Option.ne_none_iff_exists'.1 (h2 (by omega))
  refine ⟨r, hr, ?_⟩
  have := h1 r.1 r.2 hr
  have e : snSize 4 = 24 := by decide
  rw [e] at this
  omega
example (f : Nat → ℝ) := C115_fft_snsm_reference 10 7 (by omega) (by omega) f
example (f : Nat → ℝ) := C115_fft_snsm 5 3 (by omega) (by omega) f
-- `S4` on the partition `(2,2)` and two columns
example (X : Nat → Nat → ℝ) := C115_apply_left (n := 4) (p := [2, 2]) (by omega) (by refine ⟨by decide, by decide, by decide⟩) [0, 1] (by decide)
  (enc (Equiv.swap 0 3)) ⟨_, rfl⟩ X

end Snob.Props
