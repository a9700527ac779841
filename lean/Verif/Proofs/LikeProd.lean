import Verif.Proofs.Like

/-! Clebsch-Gordan products of vectors that differ in their numbers only are defined or undefined together (property C146). -/

namespace Snob

/-- a vector and offsets -/
abbrev LikeOffs (a b : SnVec × SnType) : Prop := a.1.Like b.1 ∧ a.2 = b.2

theorem like_partOf {v w : SnVec} (h : v.Like w) (mu : List Nat) : Option.Rel VPart.Like (partOf v mu) (partOf w mu) := by
  unfold partOf
  rw [like_index h]
  exact rel_bind_same _ fun ix => rel_get h ix

theorem like_getType {v w : SnVec} (h : v.Like w) : v.getType = w.getType := by
  have key : Option.Rel Eq v.getType w.getType := by
    unfold SnVec.getType
    refine rel_foldlM h (fun P Q hPQ a b hab => ?_) rfl
    rw [hab, hPQ.2.2, hPQ.2.1]
    exact rel_same _
  generalize v.getType = a at key
  generalize w.getType = b at key
  cases key with
  | some h => rw [h]
  | none => rfl

theorem like_accInner {v w : SnVec} (h : v.Like w) (c k : Nat) (l : List (List Nat)) {D E : VPart} (hDE : D.Like E) (ro : Nat) (so : SnType) :
    Option.Rel (fun a b => a.1.Like b.1 ∧ a.2 = b.2) (SnVec.accInner v c k l D ro so) (SnVec.accInner w c k l E ro so) := by
  induction l generalizing D E ro so with
  | nil => exact .some ⟨hDE, rfl⟩
  | cons z l ih =>
    unfold SnVec.accInner
    rw [like_index h]
    refine rel_bind_same _ fun ix => ?_
    refine rel_bind (rel_get h ix) fun P Q hPQ => ?_
    refine rel_bind_same _ fun o => ?_
    obtain ⟨so', o⟩ := o
    dsimp only
    split
    · rw [hPQ.1]
      refine rel_bind (like_incLoop hDE _ _ _ _ fun i j => like_get hPQ _ _) fun A B hAB => ?_
      exact rel_bind_same _ fun so => ih hAB _ _
    · exact .none

theorem like_accLoop {v w : SnVec} (h : v.Like w) (t : SnType) {R S : SnVec} (hRS : R.Like S) (offs so : SnType) :
    Option.Rel LikeOffs (SnVec.accLoop v t R offs so) (SnVec.accLoop w t S offs so) := by
  induction t generalizing R S offs so with
  | nil => exact .some ⟨hRS, rfl⟩
  | cons p t ih =>
    unfold SnVec.accLoop
    rw [like_index hRS]
    refine rel_bind_same _ fun ix => ?_
    refine rel_bind (rel_get hRS ix) fun D E hDE => ?_
    refine rel_bind_same _ fun o => ?_
    obtain ⟨offs', c⟩ := o
    refine rel_bind_same _ fun l => ?_
    dsimp only
    split
    · refine rel_bind (like_accInner h _ _ l hDE 0 so) fun a b hab => ?_
      obtain ⟨D', o⟩ := a
      obtain ⟨E', o'⟩ := b
      obtain ⟨h1, rfl⟩ : D'.Like E' ∧ o = o' := hab
      exact rel_bind_same _ fun offs => ih (rel_set hRS _ h1) _ _
    · exact .none

/-- functions that multiply two parts into a vector, defined together -/
def AccLike (acc : SnVec → SnType → VPart → VPart → Option (SnVec × SnType)) : Prop :=
  ∀ R S : SnVec, R.Like S → ∀ offs, ∀ x x' : VPart, x.Like x' → ∀ y y' : VPart, y.Like y' →
    Option.Rel LikeOffs (acc R offs x y) (acc S offs x' y')

theorem like_cgVecWith {acc : SnVec → SnType → VPart → VPart → Option (SnVec × SnType)} (h : AccLike acc) {x x' y y' : SnVec} (hx : x.Like x')
    (hy : y.Like y') : Option.Rel SnVec.Like (cgVecWith acc x y) (cgVecWith acc x' y') := by
  unfold cgVecWith
  rw [like_getType hx, like_getType hy]
  refine rel_bind_same _ fun tx => rel_bind_same _ fun ty => rel_bind_same _ fun t => rel_bind_same _ fun R => ?_
  refine rel_bind (r := LikeOffs) ?_ fun a b hab => .some hab.1
  refine rel_foldlM hx (fun P P' hP a b hab => ?_) ⟨SnVec.Like.refl R, rfl⟩
  refine rel_foldlM hy (fun Q Q' hQ a b hab => ?_) hab
  rw [hab.2]
  exact h _ _ hab.1 _ _ _ hP _ _ hQ

theorem like_twist {v w : SnVec} (h : v.Like w) {d : Nat} (sl : Slots d) (dt : SnType) :
    Option.Rel SnVec.Like (twist v sl dt) (twist w sl dt) := by
  unfold twist
  refine rel_mapM (forall₂_same dt) fun e e' he => ?_
  subst he
  refine rel_bind (like_partOf h e.1) fun P Q hPQ => rel_bind_same _ fun s => rel_bind_same _ fun rho => ?_
  exact rel_if (by rw [hPQ.2.1]) ⟨hPQ.1, rfl, rfl⟩

theorem like_cgAcc (eig : Eig) (n : Nat) : AccLike (cgAcc eig n) := by
  induction n with
  | zero => intro R S _ _ _ _ _ _ _ _; exact .none
  | succ n ih =>
    intro R S hRS offs x x' hx y y' hy
    cases n with
    | zero =>
      unfold cgAcc
      rw [hy.2.2]
      split
      · refine rel_bind (rel_get hRS 0) fun P Q hPQ => ?_
        rw [hx.2.1, hy.2.1]
        refine rel_bind (r := VPart.Like) ?_ fun A B hAB => rel_bind_same _ fun o => .some ⟨rel_set hRS _ hAB, rfl⟩
        refine rel_foldlM (forall₂_same _) (fun i i' hi A B hAB => ?_) hPQ
        subst hi
        refine rel_foldlM (forall₂_same _) (fun j j' hj A B hAB => ?_) hAB
        subst hj
        exact rel_bind (like_get hx _ _) fun u u' _ => rel_bind (like_get hy _ _) fun v v' _ => like_inc hAB _ _ _ _
      · exact .none
    | succ n =>
      unfold cgAcc
      rw [hx.2.2, hy.2.2]
      split
      · refine rel_bind (like_downB hx) fun xs xs' hxs => rel_bind (like_downB hy) fun ys ys' hys => ?_
        refine rel_bind (like_cgVecWith ih hxs hys) fun sub sub' hsub => ?_
        refine rel_bind_same _ fun tau => rel_bind_same _ fun dt => rel_bind_same _ fun sl => ?_
        exact rel_bind (like_twist hsub sl.2 dt) fun st st' hst => like_accLoop hst tau hRS _ _
      · exact .none

theorem like_cgVec (eig : Eig) {x x' y y' : SnVec} (hx : x.Like x') (hy : y.Like y') :
    Option.Rel SnVec.Like (cgVec eig x y) (cgVec eig x' y') := by
  refine like_cgVecWith (fun R S hRS offs P P' hP Q Q' hQ => ?_) hx hy
  unfold cgAccAny
  rw [hP.2.2]
  exact like_cgAcc eig _ R S hRS offs P P' hP Q Q' hQ

end Snob
