import Verif.Proofs.FloatFFTAct
import Verif.Proofs.FFTBad

/-! # The transforms with rounding: where they are undefined -/

namespace Snob

open IP Snob.Perm
open scoped Nat

variable {F : Rounding}

theorem fview_none {K : Type} [DecidableEq K] {R : IrrepObj} {cols : List K} {tau : Int} {A : Nat → K → ℝ}
    (h : R.applyTauView cols tau A = none) (B : Nat → K → ℝ) : F.applyTauView R cols tau B = none := by
  unfold IrrepObj.applyTauView at h
  unfold Rounding.applyTauView
  split at h
  · rename_i ht
    rw [if_pos ht, F.computeYORtensors_map]
    cases ht : Snob.computeYORtensors R.n R.tableaux with
    | none => rfl
    | some tabs =>
      rw [ht] at h
      simp only [Option.map_some, List.getElem?_map] at h ⊢
      cases hi : tabs[(tau - 1).toNat]? with
      | none => rfl
      | some st => rw [hi] at h; cases h
  · rename_i ht; rw [if_neg ht]

theorem ftwistUp_321 {R : IrrepObj} (hR : mkIrrep [3, 2, 1] = some R) {newN : Nat} {q : MPart} (hq : q.irrep = R) :
    twistUp F.viewAct 6 newN q = none := by
  obtain ⟨R', h1, h2⟩ := Props.C32_view_action_out_of_bounds
  obtain rfl : R' = R := Option.some.inj (h1.symm.trans hR)
  cases h : twistUp F.viewAct 6 newN q with
  | none => rfl
  | some Q =>
    obtain ⟨-, -, -, h4⟩ := twistUp_some h
    unfold forUp at h4
    have e : (((6 : Nat) : Int) - 0).toNat = 4 + 1 + 1 := rfl
    rw [e, iterUp, Option.bind_eq_some_iff] at h4
    obtain ⟨A, -, h5⟩ := h4
    rw [iterUp, Option.bind_eq_some_iff] at h5
    obtain ⟨B, h6, -⟩ := h5
    exfalso
    simp only [cycleWith] at h6
    have e2 : (((6 : Nat) : Int) - 1 - (((6 : Nat) : Int) - (0 + 1)) + 1).toNat = 0 + 1 := rfl
    rw [if_pos (by norm_num)] at h6
    unfold forDown at h6
    rw [e2] at h6
    obtain ⟨A0, hA0⟩ := iterDown_last _ _ _ _ h6
    unfold Rounding.viewAct at hA0
    rw [hq, fview_none (h2 _ A0 _)] at hA0
    cases hA0

theorem fblockLoop_irrep {v : List MPart} (bs : List BlockT) {P Q : MPart} (h : F.blockLoop v bs P = some Q) : Q.irrep = P.irrep := by
  induction bs generalizing P with
  | nil => cases h; rfl
  | cons b bs ih =>
    simp only [Rounding.blockLoop, Option.bind_eq_bind, Option.bind_eq_some_iff] at h
    obtain ⟨M, -, P1, h1, h2⟩ := h
    rw [ih h2]
    unfold Rounding.addToBlock at h1
    split at h1
    · cases h1; rfl
    · cases h1

theorem flevelUp_321 {m : Nat} (hm : m ≤ 3) {ord : Nat → SumTree} {L : LevelT} (hL : LevelOk m 6 L) (v : List MPart) :
    F.levelUp F.viewAct ord L v = none := by
  have h1 : [3, 2, 1] ∈ PL m 6 := (mem_PL (by omega) _).2 ⟨Props.isPartition_321, by simpa [row] using hm⟩
  rw [← hL.keys, List.mem_map] at h1
  obtain ⟨p, hp, hlam⟩ := h1
  obtain ⟨i, hi⟩ := List.mem_iff_getElem?.1 hp
  have hR := (hL.part i p hi).2.1
  rw [hlam] at hR
  unfold Rounding.levelUp
  cases hN : vecN v with
  | none => rfl
  | some N =>
    simp only [Option.bind_eq_bind, Option.bind_some]
    rw [mapM_none hp]
    · rfl
    · cases hq : F.partUp p v with
      | none => rfl
      | some q =>
        rw [Option.bind_some, hL.n_eq]
        refine ftwistUp_321 hR ?_
        unfold Rounding.partUp at hq
        rw [hN] at hq
        exact fblockLoop_irrep _ hq

theorem fupLoop_321 {m : Nat} (hm : m ≤ 3) {ord : Nat → SumTree} (Ls : List LevelT) {l : Nat} {L : LevelT} (hl : l < 6)
    (hn : 6 ≤ l + Ls.length) (hC : ChainOk m l (L :: Ls)) (v : List MPart) : F.upLoop F.viewAct ord Ls v = none := by
  induction Ls generalizing l L v with
  | nil => simp at hn; omega
  | cons L' Ls ih =>
    rcases hC with _ | ⟨hL, hB, hC⟩
    have hL' : LevelOk m (l + 1) L' := by
      cases hC <;> assumption
    simp only [List.length_cons] at hn
    rw [Rounding.upLoop]
    by_cases e : l + 1 = 6
    · rw [e] at hL'
      rw [flevelUp_321 hm hL']; rfl
    · cases h : F.levelUp F.viewAct ord L' v with
      | none => rfl
      | some v1 => exact ih (by omega) (by omega) hC v1

theorem ffftWith_321 {m n : Nat} (hm : 0 < m) (hm3 : m ≤ 3) (hn : 6 ≤ n) {ord : Nat → SumTree} {Ls : List LevelT}
    (hLs : fftLevels n m = some Ls) (N : Nat) (f : Nat → ℝ) : F.fftWith F.viewAct ord Ls N f = none := by
  obtain ⟨Ls', e1, e2, e3⟩ := fftLevels_ok hm (show m ≤ n by omega)
  obtain rfl : Ls' = Ls := Option.some.inj (e1.symm.trans hLs)
  obtain ⟨L, Ls, rfl⟩ : ∃ L Ls, Ls' = L :: Ls := by
    rcases Ls' with _ | ⟨L, Ls⟩
    · simp at e2
    · exact ⟨L, Ls, rfl⟩
  simp only [List.length_cons] at e2
  unfold Rounding.fftWith
  cases hP : MPart.ofFunction N f with
  | none => rfl
  | some P =>
    simp only [Option.bind_eq_bind, Option.bind_some, List.tail_cons]
    rw [fupLoop_321 hm3 Ls (by omega) (by omega) e3]; rfl

/-! ### the inverse -/

theorem ftwistDown_321 {R : IrrepObj} (hR : mkIrrep [3, 2, 1] = some R) {N : Nat} {q : MPart} (hq : q.irrep = R) :
    twistDown F.viewAct 5 N q = none := by
  obtain ⟨R', h1, h2⟩ := Props.C32_view_action_out_of_bounds
  obtain rfl : R' = R := Option.some.inj (h1.symm.trans hR)
  cases h : twistDown F.viewAct 5 N q with
  | none => rfl
  | some Q =>
    unfold twistDown at h
    simp only [Option.bind_eq_bind, Option.bind_eq_some_iff] at h
    obtain ⟨A, h4, -⟩ := h
    unfold forUp at h4
    have e : (((5 : Nat) : Int) + 1 - 0).toNat = 4 + 1 + 1 := rfl
    rw [e, iterUp, Option.bind_eq_some_iff] at h4
    obtain ⟨A, -, h5⟩ := h4
    rw [iterUp, Option.bind_eq_some_iff] at h5
    obtain ⟨B, h6, -⟩ := h5
    exfalso
    simp only [cycleWith] at h6
    have e2 : (((5 : Nat) : Int) + 1 - (((5 : Nat) : Int) + 1 - (0 + 1))).toNat = 0 + 1 := rfl
    rw [if_neg (by norm_num)] at h6
    unfold forUp at h6
    rw [e2, iterUp, Option.bind_eq_some_iff] at h6
    obtain ⟨A0, hA0, -⟩ := h6
    unfold Rounding.viewAct at hA0
    rw [hq, fview_none (h2 _ A _)] at hA0
    cases hA0

theorem flevelDown_321 {L L' : LevelT} (hL : L.n = 5) {V : List MPart} {R : IrrepObj} (hR : mkIrrep [3, 2, 1] = some R)
    (hV : ∃ q ∈ V, q.irrep = R) : F.levelDown F.viewAct L L' V = none := by
  obtain ⟨q, hq, hqR⟩ := hV
  unfold Rounding.levelDown
  cases hN : vecN V with
  | none => rfl
  | some N =>
    simp only [Option.bind_eq_bind, Option.bind_some]
    rw [mapM_none hq]
    · rfl
    · rw [hL]
      exact ftwistDown_321 hR hqR

theorem funblockLoop_irrep {n : Nat} {part : MPart} (bs : List BlockT) {R R' : List MPart} (h : F.unblockLoop n part bs R = some R') :
    R'.map MPart.irrep = R.map MPart.irrep := by
  induction bs generalizing R with
  | nil => obtain rfl := Option.some.inj h; rfl
  | cons b bs ih =>
    unfold Rounding.unblockLoop at h
    simp only [Option.bind_eq_bind, Option.bind_eq_some_iff] at h
    obtain ⟨M, hM, M', hM', h⟩ := h
    rw [ih h, List.map_set]
    have : M'.irrep = M.irrep := by
      unfold Rounding.addBlockTo at hM'
      split at hM'
      · obtain rfl := Option.some.inj hM'; rfl
      · cases hM'
    rw [this]
    refine List.ext_getElem (by simp) fun i h1 h2 => ?_
    rw [List.getElem_set]
    split
    · rename_i e
      subst e
      obtain ⟨_, hg⟩ := List.getElem?_eq_some_iff.1 hM
      rw [List.getElem_map, hg]
    · rfl

theorem funpartLoop_irrep {n : Nat} (ps : List PartT) (VV : List MPart) {R R' : List MPart} (h : F.unpartLoop n ps VV R = some R') :
    R'.map MPart.irrep = R.map MPart.irrep := by
  induction ps generalizing VV R with
  | nil => obtain rfl := Option.some.inj h; rfl
  | cons p ps ih =>
    rcases VV with _ | ⟨V, VV⟩
    · cases h
    · unfold Rounding.unpartLoop at h
      simp only [Option.bind_eq_bind, Option.bind_eq_some_iff] at h
      obtain ⟨R1, h1, h2⟩ := h
      rw [ih _ h2, funblockLoop_irrep _ h1]

theorem flevelDown_irrep {ap : ViewAct} {L L' : LevelT} {V R : List MPart} (h : F.levelDown ap L L' V = some R) :
    R.map MPart.irrep = L.parts.map PartT.irrep := by
  unfold Rounding.levelDown at h
  simp only [Option.bind_eq_bind, Option.bind_eq_some_iff] at h
  obtain ⟨N, -, VV, -, h⟩ := h
  rw [funpartLoop_irrep _ _ h, List.map_map]
  rfl

theorem fdownLoop_321 {m : Nat} (hm : m ≤ 3) (Ls : List LevelT) {l : Nat} {L : LevelT} (hl : l < 6) (hn : 6 ≤ l + Ls.length)
    (hC : ChainOk m l (L :: Ls)) {R : IrrepObj} (hR : mkIrrep [3, 2, 1] = some R) (v : List MPart)
    (hv : l + Ls.length = 6 → ∃ q ∈ v, q.irrep = R) : F.downLoop F.viewAct (L :: Ls) v = none := by
  induction Ls generalizing l L with
  | nil => simp at hn; omega
  | cons L' Ls ih =>
    rcases hC with _ | ⟨hL, hB, hC⟩
    have hL' : LevelOk m (l + 1) L' := by
      cases hC <;> assumption
    simp only [List.length_cons] at hn hv
    rw [Rounding.downLoop]
    by_cases e : l + 1 = 6
    · cases h : F.downLoop F.viewAct (L' :: Ls) v with
      | none => rfl
      | some v1 =>
        rw [Option.bind_eq_bind, Option.bind_some]
        refine flevelDown_321 (by rw [hL.n_eq]; omega) hR ?_
        rcases Ls with _ | ⟨L'', Ls⟩
        · rw [Rounding.downLoop] at h
          · obtain rfl := Option.some.inj h
            exact hv (by simp; omega)
          · intro a b c d; cases d
        · rw [Rounding.downLoop] at h
          simp only [Option.bind_eq_bind, Option.bind_eq_some_iff] at h
          obtain ⟨v0, -, h⟩ := h
          have hir := flevelDown_irrep h
          have h1 : [3, 2, 1] ∈ PL m 6 := (mem_PL (by omega) _).2 ⟨Props.isPartition_321, by simpa [row] using hm⟩
          rw [← e, ← hL'.keys, List.mem_map] at h1
          obtain ⟨p, hp, hlam⟩ := h1
          obtain ⟨i, hi⟩ := List.mem_iff_getElem?.1 hp
          have hRp := (hL'.part i p hi).2.1
          rw [hlam, hR] at hRp
          have hmem : R ∈ v1.map MPart.irrep := by
            rw [hir, Option.some.inj hRp]; exact List.mem_map_of_mem hp
          obtain ⟨q, hq1, hq2⟩ := List.mem_map.1 hmem
          exact ⟨q, hq1, hq2⟩
    · rw [ih (by omega) (by omega) hC (fun hh => hv (by omega))]; rfl

theorem fifftWith_321 {m n : Nat} (hm : 0 < m) (hm3 : m ≤ 3) (hn : 6 ≤ n) {Ls : List LevelT} (hLs : fftLevels n m = some Ls)
    {ws : List VPart} (hw : n = 6 → ∃ W ∈ ws, mkIrrep [3, 2, 1] = some W.irrep) : F.ifftWith F.viewAct Ls ws = none := by
  obtain ⟨Ls', e1, e2, e3⟩ := fftLevels_ok hm (show m ≤ n by omega)
  obtain rfl : Ls' = Ls := Option.some.inj (e1.symm.trans hLs)
  obtain ⟨L, Ls, rfl⟩ : ∃ L Ls, Ls' = L :: Ls := by
    rcases Ls' with _ | ⟨L, Ls⟩
    · simp at e2
    · exact ⟨L, Ls, rfl⟩
  simp only [List.length_cons] at e2
  obtain ⟨R, hR, -⟩ := Props.C32_view_action_out_of_bounds
  unfold Rounding.ifftWith
  cases hl : (L :: Ls).getLast? with
  | none => rfl
  | some Lst =>
    simp only [Option.bind_eq_bind, Option.bind_some]
    split
    · rw [fdownLoop_321 hm3 Ls (by omega) (by omega) e3 hR _ (fun hh => ?_)]
      · rfl
      · obtain ⟨W, hW, h⟩ := hw (by omega)
        exact ⟨MPart.ofPart W, List.mem_map_of_mem hW, (Option.some.inj (hR.symm.trans h)).symm⟩
    · rfl

end Snob
