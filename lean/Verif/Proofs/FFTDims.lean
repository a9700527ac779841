import Verif.Proofs.FFTBad
import Verif.Proofs.FFTSpec
import Verif.Proofs.FFTLin
import Verif.Proofs.SnVec

/-!
The shape of the result of a forward transform that ends, whatever the action on views and the number of values.
-/

namespace Snob

open IP
open scoped Nat

theorem blockLoop_d {v : List MPart} (bs : List BlockT) {P Q : MPart} (h : blockLoop v bs P = some Q) : Q.d = P.d := by
  induction bs generalizing P with
  | nil => obtain rfl := Option.some.inj h; rfl
  | cons b bs ih =>
    unfold blockLoop at h
    simp only [Option.bind_eq_bind, Option.bind_eq_some_iff] at h
    obtain ⟨M, hM, P1, hP1, h⟩ := h
    rw [ih h]
    unfold MPart.addToBlock at hP1
    split at hP1
    · obtain rfl := Option.some.inj hP1; rfl
    · cases hP1

/-- one level -/
theorem up_dims {ap : ViewAct} {m l : Nat} {L : LevelT} (hL : LevelOk m (l + 1) L) {v w : List MPart} {N : Nat} (hN : vecN v = some N)
    (h : L.uptransform ap v = some w) : w.length = L.parts.length ∧ ∀ (i : Nat) (p : PartT), L.parts[i]? = some p →
      ∃ P, w[i]? = some P ∧ P.irrep = p.irrep ∧ P.d = p.irrep.d ∧ P.m = p.m ∧ P.N = N / (l + 1) := by
  unfold LevelT.uptransform at h
  simp only [Option.bind_eq_bind, Option.bind_eq_some_iff] at h
  obtain ⟨N', hN', w', hw', h⟩ := h
  obtain rfl : N = N' := Option.some.inj (hN.symm.trans hN')
  rw [mapM_some_iff] at h hw'
  refine ⟨h.1.trans hw'.1, fun i p hi => ?_⟩
  obtain ⟨Q, hQ, hq⟩ := hw'.2 i p hi
  rw [Option.bind_eq_some_iff] at hq
  obtain ⟨q, h1, h2⟩ := hq
  obtain ⟨P, hP, h3⟩ := h.2 i Q hQ
  obtain ⟨a1, a2, a3, -⟩ := partUp_some h1
  have a5 : q.d = p.irrep.d := by
    unfold PartT.uptransform at h1
    simp only [Option.bind_eq_bind, Option.bind_eq_some_iff] at h1
    obtain ⟨_, _, h1⟩ := h1
    exact blockLoop_d _ h1
  obtain ⟨b1, b2, b3, -⟩ := twistUp_some h2
  have b5 : Q.d = q.d := by
    unfold twistUp at h2
    simp only [Option.bind_eq_bind, Option.bind_eq_some_iff] at h2
    obtain ⟨A, _, h2⟩ := h2
    obtain rfl := Option.some.inj h2
    rfl
  obtain ⟨c1, c2, c3, -⟩ := reduce_some h3
  have c5 : P.d = Q.d := by
    unfold MPart.reduce at h3
    simp only at h3
    split at h3
    · cases h3
    · obtain rfl := Option.some.inj h3; rfl
  obtain rfl : N = q.N := Option.some.inj (hN.symm.trans a3)
  refine ⟨P, hP, c1.trans (b1.trans a1), c5.trans (b5.trans a5), c2.trans (b2.trans a2), ?_⟩
  rw [c3, b1, a1, b3, hL.getn (by omega) (List.mem_of_getElem? hi)]

theorem LevelOk.parts_ne {m l : Nat} {L : LevelT} (hL : LevelOk m l L) (hm : m ≤ l) (hl : 0 < l) : ∃ p, L.parts[0]? = some p := by
  have : [l] ∈ PL m l := (mem_PL hl _).2 ⟨isPartition_row hl, by simpa [row] using hm⟩
  rw [← hL.keys] at this
  have hpos : 0 < L.parts.length := by
    rcases h : L.parts with _ | ⟨a, t⟩
    · rw [h] at this; simp at this
    · simp
  exact ⟨_, List.getElem?_eq_getElem hpos⟩

theorem upLoop_dims {ap : ViewAct} {m : Nat} (hm : 0 < m) (Ls : List LevelT) : ∀ {l : Nat} {L : LevelT} {v w : List MPart} {N : Nat}, m ≤ l →
    ChainOk m l (L :: Ls) → vecN v = some N → upLoop ap Ls v = some w →
    vecN w = some (N / ((l + Ls.length)! / l !)) ∧ (Ls ≠ [] → ∃ L', LevelOk m (l + Ls.length) L' ∧ w.length = L'.parts.length ∧
      ∀ (i : Nat) (p : PartT), L'.parts[i]? = some p → ∃ P, w[i]? = some P ∧ P.irrep = p.irrep ∧ P.d = p.irrep.d ∧ P.m = p.m) := by
  induction Ls with
  | nil =>
    intro l L v w N hl hC hN h
    obtain rfl := Option.some.inj h
    refine ⟨?_, fun h => absurd rfl h⟩
    rw [List.length_nil, Nat.add_zero, Nat.div_self (Nat.factorial_pos _), Nat.div_one]
    exact hN
  | cons L' Ls ih =>
    intro l L v w N hl hC hN h
    rcases hC with _ | ⟨hL, hB, hC⟩
    have hL' : LevelOk m (l + 1) L' := by cases hC <;> assumption
    unfold upLoop at h
    obtain ⟨x, h1, h2⟩ := Option.bind_eq_some_iff.1 h
    obtain ⟨k1, k2⟩ := up_dims hL' hN h1
    obtain ⟨p0, hp0⟩ := hL'.parts_ne (by omega) (by omega)
    obtain ⟨P0, hP0, -, -, -, hP0N⟩ := k2 0 p0 hp0
    have hNx : vecN x = some (N / (l + 1)) := by
      unfold vecN
      rw [List.head?_eq_getElem?, hP0, Option.map_some, hP0N]
    obtain ⟨a1, a2⟩ := ih (l := l + 1) (by omega) hC hNx h2
    have e : l + (L' :: Ls).length = l + 1 + Ls.length := by simp only [List.length_cons]; omega
    rw [e]
    refine ⟨?_, fun _ => ?_⟩
    · rw [a1, Nat.div_div_eq_div_mul]
      congr 2
      rw [quot_pred (n := l + 1 + Ls.length) (l := l) (by omega), Nat.mul_comm]
    · rcases Ls with _ | ⟨L2, Ls⟩
      · obtain rfl := Option.some.inj h2
        refine ⟨L', by simpa using hL', k1, fun i p hi => ?_⟩
        obtain ⟨P, b1, b2, b3, b4, -⟩ := k2 i p hi
        exact ⟨P, b1, b2, b3, b4⟩
      · exact a2 (by simp)

/-- the number of values and the shape of the result -/
theorem fftWith_dims {ap : ViewAct} {m n : Nat} (hm : 0 < m) (hn : m ≤ n) {Ls : List LevelT} (hLs : fftLevels n m = some Ls) {N : Nat} {f : Nat → ℝ}
    {ws : List VPart} (h : fftWith ap Ls N f = some ws) :
    N / (n ! / m !) = 1 ∧ (m < n → HasShape (fun R => startCols m R.tableaux) (PL m n) ws) := by
  obtain ⟨Ls', e1, e2, e3⟩ := fftLevels_ok hm hn
  obtain rfl : Ls' = Ls := Option.some.inj (e1.symm.trans hLs)
  obtain ⟨L, Ls, rfl⟩ : ∃ L Ls, Ls' = L :: Ls := by
    rcases Ls' with _ | ⟨L, Ls⟩
    · simp at e2
    · exact ⟨L, Ls, rfl⟩
  simp only [List.length_cons] at e2
  unfold fftWith at h
  simp only [Option.bind_eq_bind, Option.bind_eq_some_iff, List.tail_cons] at h
  obtain ⟨P, hP, v, hv, h⟩ := h
  have hPN : vecN [P] = some N := by
    unfold MPart.ofFunction at hP
    obtain ⟨R, _, rfl⟩ := Option.map_eq_some_iff.1 hP
    rfl
  obtain ⟨a1, a2⟩ := upLoop_dims hm Ls (Nat.le_refl m) e3 hPN hv
  have en : m + Ls.length = n := by omega
  rw [en] at a1 a2
  rw [mapM_some_iff] at h
  refine ⟨?_, fun hmn => ?_⟩
  · unfold vecN at a1
    obtain ⟨P0, hP0, hP0'⟩ := Option.map_eq_some_iff.1 a1
    rw [List.head?_eq_getElem?] at hP0
    obtain ⟨W, _, hW⟩ := h.2 0 P0 hP0
    unfold MPart.toPart at hW
    split at hW
    · rename_i h1
      rw [← hP0', h1]
    · cases hW
  · obtain ⟨L', hL', k1, k2⟩ := a2 (by rintro rfl; simp at en; omega)
    have hkey : ∀ (i : Nat) (p : List Nat), (PL m n)[i]? = some p → ∃ q W, L'.parts[i]? = some q ∧ ws[i]? = some W ∧ q.irrep.lambda = p ∧
        W.irrep = q.irrep ∧ W.d = q.irrep.d ∧ W.m = q.m := by
      intro i p hi
      rw [← hL'.keys, List.getElem?_map] at hi
      obtain ⟨q, hq, hqp⟩ := Option.map_eq_some_iff.1 hi
      obtain ⟨P, b1, b2, b3, b4⟩ := k2 i q hq
      obtain ⟨W, c1, c2⟩ := h.2 i P b1
      unfold MPart.toPart at c2
      split at c2
      · obtain rfl := Option.some.inj c2
        exact ⟨q, _, hq, c1, hqp, b2, b3, b4⟩
      · cases c2
    refine ⟨?_, fun i p W hi hW => ?_⟩
    · rw [h.1, k1, ← hL'.keys, List.length_map]
    · obtain ⟨q, W', c1, c2, rfl, c4, c5, c6⟩ := hkey i p hi
      obtain rfl : W' = W := Option.some.inj (c2.symm.trans hW)
      obtain ⟨-, d2, d3, d4⟩ := hL'.part i q c1
      obtain ⟨hp, -⟩ := hL'.mem (by omega) (List.mem_of_getElem? c1)
      obtain ⟨R, hR, -, hrep⟩ := exists_repr (by omega) hp
      obtain rfl : R = q.irrep := Option.some.inj (hR.symm.trans d2)
      refine ⟨by rw [c4]; exact d2, by rw [c5, c4], ?_⟩
      rw [c6, d4, c4, hrep.startCols_length hn]

end Snob
