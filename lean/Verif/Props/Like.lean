import Verif.Props.FloatExact
import Verif.Proofs.LikeFFT
import Verif.Proofs.LikeProd

/-! # Property C146: whether a call is defined depends on dimensions only -/

namespace Snob.Props

open Snob

variable (F G : Rounding) (ord ord' : Nat → SumTree)

/-- **C146.** Two runs of a program on vectors of the same dimensions and partitions, with weights of the same dimensions, and with whatever
roundings and orders of sums: both fail, or both succeed with vectors of the same dimensions and partitions. -/
theorem C146_program {p p' : List LStmt} (hp : List.Forall₂ LStmt.Like p p') {xs ys : List SnVec} (h : List.Forall₂ SnVec.Like xs ys) :
    Option.Rel (List.Forall₂ SnVec.Like) (F.lrun ord p xs) (G.lrun ord' p' ys) := by
  induction hp generalizing xs ys with
  | nil => exact .some h
  | cons hc _ ih => exact rel_bind (like_lexec F G ord ord' hc h) fun a b hab => ih hab

theorem like_stmt (c : LStmt) : c.Like c := by
  have hW : ∀ W : Weights, W.Like W := by
    intro W z
    rcases W z with _ | ⟨a, b, f⟩ | ⟨k, f⟩
    · exact .none
    · exact .some ⟨rfl, rfl⟩
    · exact .some rfl
  rcases c with ((⟨W, i⟩ | ⟨i, is⟩ | ⟨i, j⟩) | ⟨i, j⟩) | i | ⟨tau, i⟩
  · exact ⟨W, rfl, hW W⟩
  all_goals rfl

theorem isSome_of_rel {α β : Type} {r : α → β → Prop} {a : Option α} {b : Option β} (h : Option.Rel r a b) : a.isSome = b.isSome := by
  cases h <;> rfl

/-- **C146.** A program without `CGproduct` in floating point is defined exactly if it is defined in exact arithmetic, and then its results
have the same dimensions and partitions. -/
theorem C146_program_exact (eig : Eig) (p : List LStmt) (hp : ∀ c ∈ p, c.Linear) (xs : List SnVec) :
    Option.Rel (List.Forall₂ SnVec.Like) (F.lrun ord p xs) (LStmt.run eig p xs) := by
  rw [← C144_exact inOrderOf_covers eig p hp xs]
  refine C146_program F Rounding.exact ord inOrderOf ?_ ?_
  · clear hp
    induction p with
    | nil => exact .nil
    | cons c p ih => exact .cons (like_stmt c) ih
  · induction xs with
    | nil => exact .nil
    | cons x xs ih => exact .cons (SnVec.Like.refl x) ih

/-- **C146.** `CGproduct` of vectors and of parts, whatever the eigensolver returns. -/
theorem C146_product (eig : Eig) {x x' y y' : SnVec} (hx : x.Like x') (hy : y.Like y') {P P' Q Q' : VPart} (hP : P.Like P') (hQ : Q.Like Q') :
    Option.Rel SnVec.Like (cgVec eig x y) (cgVec eig x' y') ∧ Option.Rel SnVec.Like (cgParts eig P Q) (cgParts eig P' Q') := by
  refine ⟨like_cgVec eig hx hy, ?_⟩
  unfold cgParts cgAccAny
  rw [hP.2.2, hQ.2.2]
  refine rel_bind_same _ fun t => rel_bind_same _ fun R => ?_
  exact rel_bind (like_cgAcc eig _ R R (SnVec.Like.refl R) [] P P' hP Q Q' hQ) fun a b hab => .some hab.1

/-- **C146.** Programs with `CGproduct` in exact arithmetic, whatever the eigensolver returns. -/
theorem C146_network (eig : Eig) {p p' : List LStmt} (hp : List.Forall₂ LStmt.Like p p') {xs ys : List SnVec}
    (h : List.Forall₂ SnVec.Like xs ys) : Option.Rel (List.Forall₂ SnVec.Like) (LStmt.run eig p xs) (LStmt.run eig p' ys) := by
  have lin : ∀ c c' : LStmt, c.Like c' → c.Linear → c'.Linear → ∀ s t : List SnVec, List.Forall₂ SnVec.Like s t →
      Option.Rel (List.Forall₂ SnVec.Like) (c.exec eig s) (c'.exec eig t) := by
    intro c c' hc h1 h2 s t hst
    have k := C146_program Rounding.exact Rounding.exact inOrderOf inOrderOf (.cons hc .nil) hst
    rw [C144_exact inOrderOf_covers eig [c] (fun d hd => List.mem_singleton.1 hd ▸ h1) s,
      C144_exact inOrderOf_covers eig [c'] (fun d hd => List.mem_singleton.1 hd ▸ h2) t] at k
    change Option.Rel _ ((c.exec eig s).bind some) ((c'.exec eig t).bind some) at k
    rwa [Option.bind_fun_some, Option.bind_fun_some] at k
  induction hp generalizing xs ys with
  | nil => exact .some h
  | @cons c c' p p' hc _ ih =>
    refine rel_bind (r := List.Forall₂ SnVec.Like) ?_ fun a b hab => ih hab
    rcases c with ((⟨W, i⟩ | ⟨i, is⟩ | ⟨i, j⟩) | ⟨i, j⟩) | i | ⟨tau, i⟩
    · obtain ⟨W', rfl, hW⟩ := hc
      exact lin (.net (.lin (.mul W i))) _ ⟨W', rfl, hW⟩ trivial trivial _ _ h
    · obtain rfl := hc
      refine lin _ _ (like_stmt _) ?_ ?_ _ _ h <;> trivial
    · obtain rfl := hc
      refine lin _ _ (like_stmt _) ?_ ?_ _ _ h <;> trivial
    · obtain rfl := hc
      exact rel_bind (rel_get h i) fun u u' hu => rel_bind (rel_get h j) fun v v' hv =>
        rel_bind (like_cgVec eig hu hv) fun a b hab => .some (rel_append h (.cons hab .nil))
    · obtain rfl := hc
      refine lin _ _ (like_stmt _) ?_ ?_ _ _ h <;> trivial
    · obtain rfl := hc
      refine lin _ _ (like_stmt _) ?_ ?_ _ _ h <;> trivial

/-- **C146.** The actions on vectors of the same dimensions with the same irreps, and sums. -/
theorem C146_vectors {v w v' w' : SnVec} (h : v.LikeIn w) (h' : v'.LikeIn w') (sigma : Arr) (a b : Int) :
    Option.Rel SnVec.LikeIn (F.vecApply v sigma) (G.vecApply w sigma) ∧
    Option.Rel SnVec.LikeIn (F.vecCycle v a b) (G.vecCycle w a b) ∧
    Option.Rel SnVec.LikeIn (F.vecCycleInv v a b) (G.vecCycleInv w a b) ∧
    Option.Rel SnVec.LikeIn (F.vecTransposition v a b) (G.vecTransposition w a b) ∧
    Option.Rel SnVec.LikeIn (F.vecAdd v v') (G.vecAdd w w') := by
  refine ⟨rel_mapM h fun P Q hPQ => ?_, rel_mapM h fun P Q hPQ => ?_, rel_mapM h fun P Q hPQ => ?_, rel_mapM h fun P Q hPQ => ?_, ?_⟩
  · unfold Rounding.partApply
    rw [hPQ.2.1, hPQ.2.2]
    exact rel_bind (rel_applySigma F G _ _ _ _ _) fun _ _ _ => .some ⟨hPQ.1, rfl, rfl⟩
  · unfold Rounding.partCycle
    rw [hPQ.2.1, hPQ.2.2]
    exact rel_bind (rel_applyCycle F G _ _ _ _ _ _) fun _ _ _ => .some ⟨hPQ.1, rfl, rfl⟩
  · unfold Rounding.partCycleInv
    rw [hPQ.2.1, hPQ.2.2]
    exact rel_bind (rel_applyCycleInv F G _ _ _ _ _ _) fun _ _ _ => .some ⟨hPQ.1, rfl, rfl⟩
  · unfold Rounding.partTransposition
    rw [hPQ.2.1, hPQ.2.2]
    exact rel_bind (rel_applyTransposition F G _ _ _ _ _ _) fun _ _ _ => .some ⟨hPQ.1, rfl, rfl⟩
  · unfold Rounding.vecAdd
    rw [List.Forall₂.length_eq h, List.Forall₂.length_eq h']
    split
    · rename_i hl
      clear hl
      induction h generalizing v' w' with
      | nil => cases h' <;> exact .some .nil
      | cons h _ ih =>
        cases h' with
        | nil => exact .some .nil
        | cons h1 h2 =>
          exact rel_bind (r := VPart.LikeIn) (rel_if (by rw [h.1, h.2.1, h1.1, h1.2.1]) h) fun A B hAB =>
            rel_bind (ih h2) fun u u' hu => .some (.cons hAB hu)
    · exact .none

/-- **C146.** The transforms as coded: whether they are defined depends on `n` and `m` only, and for the inverse on the dimensions and irreps of
the vector. -/
theorem C146_transforms (n m : Nat) :
    (∀ f g, Option.Rel SnVec.LikeIn (F.fft ord n f) (G.fft ord' n g)) ∧
    (∀ f g, Option.Rel SnVec.LikeIn (F.fftSnSm ord n m f) (G.fftSnSm ord' n m g)) ∧
    (∀ v w : SnVec, v.LikeIn w → Option.Rel (fun a b => a.1 = b.1) (F.ifft n v) (G.ifft n w)) ∧
    ∀ v w : SnVec, v.LikeIn w → Option.Rel (fun a b => a.1 = b.1) (F.ifftSnSm n m v) (G.ifftSnSm n m w) := by
  have hap : ActLike F.viewAct G.viewAct := rel_viewAct F G
  exact ⟨fun f g => rel_bind_same _ fun L => rel_fftWith F G ord ord' hap L _ f g,
    fun f g => rel_bind_same _ fun L => rel_fftWith F G ord ord' hap L _ f g,
    fun v w h => rel_bind_same _ fun L => rel_ifftWith F G hap L h,
    fun v w h => rel_bind_same _ fun L => rel_ifftWith F G hap L h⟩

/-- **C146.** The forward transforms in floating point are defined exactly if they are defined in exact arithmetic. -/
theorem C146_transforms_exact (n m : Nat) (f g : Nat → ℝ) :
    (F.fft ord n f).isSome = (fft n g).isSome ∧ (F.fftSnSm ord n m f).isSome = (fftSnSm n m g).isSome := by
  obtain ⟨h1, h2, -, -⟩ := C145_transforms inOrderOf_covers n m
  obtain ⟨k1, k2, -, -⟩ := C146_transforms F Rounding.exact ord inOrderOf n m
  exact ⟨h1 g ▸ isSome_of_rel (k1 f g), h2 g ▸ isSome_of_rel (k2 f g)⟩

/-! ### examples -/

-- adding vectors in `float` fails for parts with different numbers of columns, whatever their entries
example (eig : Eig) (R : IrrepObj) (f g : Nat → Nat → ℝ) :
    Rounding.ieee.lrun inOrderOf [.net (.lin (.add 0 1))] [[⟨2, 1, R, f⟩], [⟨2, 3, R, g⟩]] = none := by
  have h := C146_program_exact Rounding.ieee inOrderOf eig [.net (.lin (.add 0 1))] (fun c hc => by rw [List.mem_singleton.1 hc]; trivial)
    [[⟨2, 1, R, f⟩], [⟨2, 3, R, g⟩]]
  have e : LStmt.run eig [.net (.lin (.add 0 1))] [[⟨2, 1, R, f⟩], [⟨2, 3, R, g⟩]] = none := rfl
  rw [e] at h
  cases h
  rfl
-- `CGproduct` of a vector with itself, then a sum: on `x` and on any other vector of the same dimensions
example (eig : Eig) (x y : SnVec) (h : x.Like y) :
    (LStmt.run eig [.net (.prod 0 0), .net (.lin (.add 1 1))] [x]).isSome = (LStmt.run eig [.net (.prod 0 0), .net (.lin (.add 1 1))] [y]).isSome :=
  isSome_of_rel (C146_network eig (.cons (like_stmt _) (.cons (like_stmt _) .nil)) (.cons h .nil))
-- the transform on `S6` fails for every function
example (f : Nat → ℝ) : (Rounding.ieee.fft inOrderOf 6 f).isSome = (fft 6 fun _ => 0).isSome :=
  (C146_transforms_exact Rounding.ieee inOrderOf 6 1 f _).1
-- `apply` to a vector of zeros or of ones
example (R : IrrepObj) (sigma : Arr) := (C146_vectors Rounding.ieee Rounding.exact (v := [⟨2, 1, R, fun _ _ => 0⟩]) (w := [⟨2, 1, R, fun _ _ => 1⟩])
  (v' := []) (w' := []) (.cons ⟨rfl, rfl, rfl⟩ .nil) .nil sigma 1 2).1

end Snob.Props
