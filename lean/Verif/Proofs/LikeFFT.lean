import Verif.Proofs.Like
import Verif.Model.FloatFFT

/-! Transforms of functions and vectors that differ in their numbers only are defined or undefined together (property C146). -/

namespace Snob

/-- of the same dimensions and for the same irrep -/
def MPart.LikeIn (P Q : MPart) : Prop := P.N = Q.N ∧ P.d = Q.d ∧ P.m = Q.m ∧ P.irrep = Q.irrep

theorem MPart.LikeIn.refl (P : MPart) : P.LikeIn P := ⟨rfl, rfl, rfl, rfl⟩

section
variable (F G : Rounding)

/-- tables of the same lengths -/
def TensorSt.Like (a b : TensorSt) : Prop := a.diag.length = b.diag.length ∧ a.givens.length = b.givens.length ∧ a.done = b.done

theorem rel_tensorBody (ts : List Tab) (tau i : Nat) {a b : TensorSt} (h : a.Like b) :
    Option.Rel TensorSt.Like (F.tensorBody ts tau i a) (G.tensorBody ts tau i b) := by
  unfold Rounding.tensorBody
  obtain ⟨h1, h2, h3⟩ := h
  rw [h3]
  rcases b.done[i]? with _ | _ | _
  · exact .none
  · rcases ts[i]? with _ | T
    · exact .none
    · dsimp only
      rcases Tab.applyTransp T tau (tau + 1) with _ | ⟨T', delta⟩
      · exact .none
      · dsimp only
        split
        · exact .some ⟨by simp [h1], h2, rfl⟩
        · split
          · exact .none
          · rw [h1, h2]
            exact rel_if Iff.rfl ⟨h1, by simp [h2], rfl⟩
  · exact .some ⟨h1, h2, h3⟩

theorem rel_tensorLoop (ts : List Tab) (tau : Nat) (is : List Nat) {a b : TensorSt} (h : a.Like b) :
    Option.Rel TensorSt.Like (F.tensorLoop ts tau is a) (G.tensorLoop ts tau is b) := by
  induction is generalizing a b with
  | nil => exact .some h
  | cons i is ih => exact rel_bind (rel_tensorBody F G ts tau i h) fun a b hab => ih hab

theorem rel_viewAct (R : IrrepObj) (cols : List (Nat × Nat)) (tau : Int) (A B : Nat → Nat × Nat → ℝ) :
    Option.Rel (fun _ _ => True) (F.viewAct R cols tau A) (G.viewAct R cols tau B) := by
  unfold Rounding.viewAct Rounding.applyTauView
  split
  · have h : Option.Rel (List.Forall₂ TensorSt.Like) (F.computeYORtensors R.n R.tableaux) (G.computeYORtensors R.n R.tableaux) :=
      rel_mapM (forall₂_same _) fun t t' ht => ht ▸ rel_tensorLoop F G _ t _ ⟨rfl, rfl, rfl⟩
    generalize F.computeYORtensors R.n R.tableaux = a at h
    generalize G.computeYORtensors R.n R.tableaux = b at h
    cases h with
    | none => exact .none
    | some h =>
      have h' := rel_get h (tau - 1).toNat
      rename_i x y
      dsimp only
      generalize x[(tau - 1).toNat]? = a at h'
      generalize y[(tau - 1).toNat]? = b at h'
      cases h' with
      | none => exact .none
      | some _ => exact .some trivial
  · exact .none

end

/-- actions that are defined together -/
def ActLike (ap ap' : ViewAct) : Prop := ∀ R cols tau A B, Option.Rel (fun _ _ => True) (ap R cols tau A) (ap' R cols tau B)

section
variable {ap ap' : ViewAct} (hap : ActLike ap ap')
include hap

theorem rel_cycleWith (R : IrrepObj) (cols : List (Nat × Nat)) (a b : Int) (A B : Nat → Nat × Nat → ℝ) :
    Option.Rel (fun _ _ => True) (cycleWith ap R cols a b A) (cycleWith ap' R cols a b B) := by
  unfold cycleWith
  split
  · exact rel_iterDown (fun i x y _ => hap R cols i x y) _ _ _ _ trivial
  · exact rel_iterUp (fun i x y _ => hap R cols i x y) _ _ _ _ trivial

theorem rel_twistUp (n newN : Nat) {P Q : MPart} (h : P.LikeIn Q) : Option.Rel MPart.LikeIn (twistUp ap n newN P) (twistUp ap' n newN Q) := by
  unfold twistUp
  rw [h.2.2.1, h.2.2.2]
  refine rel_bind (r := fun _ _ => True) ?_ fun A B _ => .some ?_
  · unfold forUp
    refine rel_iterUp (fun i x y _ => ?_) _ _ _ _ trivial
    exact rel_cycleWith hap _ _ _ _ x y
  · exact ⟨h.1, h.2.1, rfl, rfl⟩

theorem rel_twistDown (n N : Nat) {P Q : MPart} (h : P.LikeIn Q) : Option.Rel MPart.LikeIn (twistDown ap n N P) (twistDown ap' n N Q) := by
  unfold twistDown
  rw [h.2.2.1, h.2.2.2]
  refine rel_bind (r := fun _ _ => True) ?_ fun A B _ => .some ?_
  · unfold forUp
    refine rel_iterUp (fun i x y _ => ?_) _ _ _ _ trivial
    exact rel_cycleWith hap _ _ _ _ x y
  · exact ⟨h.1, h.2.1, rfl, rfl⟩

end

theorem likeIn_vecN {v w : List MPart} (h : List.Forall₂ MPart.LikeIn v w) : vecN v = vecN w := by
  cases h with
  | nil => rfl
  | cons h _ => exact congrArg some h.1

section
variable (F G : Rounding) (ord ord' : Nat → SumTree) {ap ap' : ViewAct} (hap : ActLike ap ap')

theorem rel_blockLoop {v w : List MPart} (h : List.Forall₂ MPart.LikeIn v w) (bs : List BlockT) {P Q : MPart} (hPQ : P.LikeIn Q) :
    Option.Rel MPart.LikeIn (F.blockLoop v bs P) (G.blockLoop w bs Q) := by
  induction bs generalizing P Q with
  | nil => exact .some hPQ
  | cons b bs ih =>
    refine rel_bind (rel_get h b.subix) fun M M' hM => rel_bind (r := MPart.LikeIn) ?_ fun A B hAB => ih hAB
    exact rel_if (by rw [hM.1, hM.2.1, hM.2.2.1, hPQ.1, hPQ.2.1, hPQ.2.2.1]) hPQ

theorem rel_unblockLoop (n : Nat) {P Q : MPart} (hPQ : P.LikeIn Q) (qs : List BlockT) {R S : List MPart} (h : List.Forall₂ MPart.LikeIn R S) :
    Option.Rel (List.Forall₂ MPart.LikeIn) (F.unblockLoop n P qs R) (G.unblockLoop n Q qs S) := by
  induction qs generalizing R S with
  | nil => exact .some h
  | cons q qs ih =>
    refine rel_bind (rel_get h q.subix) fun M M' hM => rel_bind (r := MPart.LikeIn) ?_ fun A B hAB => ih (rel_set h _ hAB)
    exact rel_if (by rw [hM.1, hM.2.1, hM.2.2.1, hPQ.1, hPQ.2.1, hPQ.2.2.1]) hM

theorem rel_unpartLoop (n : Nat) (ps : List PartT) {V W : List MPart} (hV : List.Forall₂ MPart.LikeIn V W) {R S : List MPart}
    (h : List.Forall₂ MPart.LikeIn R S) : Option.Rel (List.Forall₂ MPart.LikeIn) (F.unpartLoop n ps V R) (G.unpartLoop n ps W S) := by
  induction ps generalizing V W R S with
  | nil => exact .some h
  | cons p ps ih =>
    cases hV with
    | nil => exact .none
    | cons hP hV => exact rel_bind (rel_unblockLoop F G n hP p.blocks h) fun A B hAB => ih hV hAB

theorem likeIn_refl (v : List MPart) : List.Forall₂ MPart.LikeIn v v := by
  induction v with
  | nil => exact .nil
  | cons P v ih => exact .cons (MPart.LikeIn.refl P) ih

include hap

theorem rel_upLoop (Ls : List LevelT) {v w : List MPart} (h : List.Forall₂ MPart.LikeIn v w) :
    Option.Rel (List.Forall₂ MPart.LikeIn) (F.upLoop ap ord Ls v) (G.upLoop ap' ord' Ls w) := by
  induction Ls generalizing v w with
  | nil => exact .some h
  | cons L Ls ih =>
    refine rel_bind (r := List.Forall₂ MPart.LikeIn) ?_ fun a b hab => ih hab
    unfold Rounding.levelUp
    rw [likeIn_vecN h]
    refine rel_bind_same _ fun N => ?_
    refine rel_bind (r := List.Forall₂ MPart.LikeIn) (rel_mapM (forall₂_same L.parts) fun p p' hp => ?_) fun a b hab => rel_mapM hab fun P Q hPQ => ?_
    · subst hp
      refine rel_bind (r := MPart.LikeIn) ?_ fun A B hAB => rel_twistUp hap _ _ hAB
      unfold Rounding.partUp
      rw [likeIn_vecN h]
      exact rel_bind_same _ fun N => rel_blockLoop F G h _ (MPart.LikeIn.refl _)
    · unfold Rounding.reduce
      rw [hPQ.2.2.2]
      dsimp only
      split
      · exact .none
      · exact .some ⟨by rw [hPQ.1], hPQ.2.1, hPQ.2.2.1, rfl⟩

theorem rel_downLoop (Ls : List LevelT) {v w : List MPart} (h : List.Forall₂ MPart.LikeIn v w) :
    Option.Rel (List.Forall₂ MPart.LikeIn) (F.downLoop ap Ls v) (G.downLoop ap' Ls w) := by
  induction Ls with
  | nil => exact .some h
  | cons L Ls ih =>
    cases Ls with
    | nil => exact .some h
    | cons L' Ls =>
      refine rel_bind ih fun a b hab => ?_
      unfold Rounding.levelDown
      rw [likeIn_vecN hab]
      refine rel_bind_same _ fun N => ?_
      refine rel_bind (r := List.Forall₂ MPart.LikeIn) (rel_mapM hab fun P Q hPQ => ?_) fun V W hVW => rel_unpartLoop F G _ _ hVW (likeIn_refl _)
      exact rel_twistDown hap _ _ ⟨congrArg (· * (L.n + 1)) hPQ.1, hPQ.2.1, hPQ.2.2.1, hPQ.2.2.2⟩

theorem rel_fftWith (levels : List LevelT) (N : Nat) (f g : Nat → ℝ) :
    Option.Rel SnVec.LikeIn (F.fftWith ap ord levels N f) (G.fftWith ap' ord' levels N g) := by
  unfold Rounding.fftWith
  refine rel_bind (r := MPart.LikeIn) ?_ fun P Q hPQ => ?_
  · unfold MPart.ofFunction
    exact rel_map (rel_same _) fun x y h => ⟨rfl, rfl, rfl, h⟩
  · refine rel_bind (rel_upLoop F G ord ord' hap _ (.cons hPQ .nil)) fun a b hab => rel_mapM hab fun P Q hPQ => ?_
    exact rel_if (by rw [hPQ.1]) ⟨hPQ.2.1, hPQ.2.2.1, hPQ.2.2.2⟩

theorem rel_ifftWith (levels : List LevelT) {v w : SnVec} (h : v.LikeIn w) :
    Option.Rel (fun a b => a.1 = b.1) (F.ifftWith ap levels v) (G.ifftWith ap' levels w) := by
  unfold Rounding.ifftWith
  refine rel_bind_same _ fun L => ?_
  have e : ∀ ps, dimsOk ps v = dimsOk ps w := by
    induction h with
    | nil => intro ps; rfl
    | cons h _ ih =>
      intro ps
      cases ps with
      | nil => rfl
      | cons p ps => simp only [dimsOk, ih, h.1, h.2.1]
  rw [e]
  split
  · have hm : List.Forall₂ MPart.LikeIn (v.map MPart.ofPart) (w.map MPart.ofPart) := by
      rename_i hd
      clear e hd
      induction h with
      | nil => exact .nil
      | cons h _ ih => exact .cons ⟨rfl, h.1, h.2.1, h.2.2⟩ ih
    refine rel_bind (rel_downLoop F G hap levels hm) fun a b hab => ?_
    refine rel_bind (r := MPart.LikeIn) ?_ fun P Q hPQ => .some ?_
    · cases hab with
      | nil => exact .none
      | cons h _ => exact .some h
    · change P.d * P.N * P.m = Q.d * Q.N * Q.m
      rw [hPQ.1, hPQ.2.1, hPQ.2.2.1]
  · exact .none

end

end Snob
