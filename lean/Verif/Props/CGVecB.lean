import Verif.Proofs.CGVecB3
import Verif.Props.SnVecB
import Verif.Props.CGVec

/-! # Property C81: Clebsch-Gordan products of batches -/

namespace Snob.Props

open Snob IP SnVecB

/-- **C81.** The product of two batches is the batch of the products of the members; it is undefined when these are. -/
theorem C81_members (eig : Eig) (n b : Nat) (hn : 1 ≤ n) (x y : SnVecB) (hx : Ok n b x) (hy : Ok n b y) (hx0 : x ≠ []) (hy0 : y ≠ []) :
    (∀ k < b, (cgVecB eig x y).map (fun w => member w k) = cgVec eig (member x k) (member y k)) ∧
      ∀ w, cgVecB eig x y = some w → ∀ P ∈ w, P.b = b :=
  cgVecWithB_member (simAccAny eig hn) hx hy hx0 hy0

/-- **C81.** Likewise for parts. -/
theorem C81_parts (eig : Eig) (n b : Nat) (hn : 1 ≤ n) (x y : BPart) (hx : Ok n b [x]) (hy : Ok n b [y]) :
    (∀ k < b, (cgPartsB eig x y).map (fun w => member w k) = cgParts eig (x.member k) (y.member k)) ∧
      ∀ w, cgPartsB eig x y = some w → ∀ P ∈ w, P.b = b := by
  have xb := hx.size x (by simp)
  have yb := hy.size y (by simp)
  obtain ⟨x1, x2, x3⟩ := hx.part x (by simp)
  obtain ⟨y1, y2, y3⟩ := hy.part y (by simp)
  have e : cgPartsB eig x y = (do
    let t ← cgTau x.irrep.lambda y.irrep.lambda
    let R ← SnVecB.zero b t
    let s ← cgAccAnyB eig R [] x y
    some s.1) := by
    unfold cgPartsB
    rw [if_pos (xb.trans yb.symm), xb]
  rw [e]
  constructor
  · intro k hk
    unfold cgParts
    rw [show (x.member k).irrep.lambda = x.irrep.lambda from rfl, show (y.member k).irrep.lambda = y.irrep.lambda from rfl]
    cases cgTau x.irrep.lambda y.irrep.lambda with
    | none => rfl
    | some t =>
      simp only [Option.bind_eq_bind, Option.bind_some]
      rw [← SnVecB.member_zero b k]
      cases h : SnVecB.zero b t with
      | none => rfl
      | some R =>
        simp only [Option.bind_some, Option.map_some]
        rw [← (simAccAny eig hn xb yb x1 y1 x2 y2 x3 y3 R (zero_allB h) []).1 k hk]
        cases cgAccAnyB eig R [] x y with
        | none => rfl
        | some s => rfl
  · intro w h
    obtain ⟨t, -, h⟩ := Option.bind_eq_some_iff.1 h
    obtain ⟨R, h1, h⟩ := Option.bind_eq_some_iff.1 h
    obtain ⟨s, h2, h⟩ := Option.bind_eq_some_iff.1 h
    rw [← Option.some.inj h]
    exact (simAccAny eig hn xb yb x1 y1 x2 y2 x3 y3 R (zero_allB h1) []).2 s h2

/-- **C81.** What `learn` computes from the product of two batches of unit vectors is what it would compute from the products of the
pairs of unit vectors one by one (as in Model/CGVec): products are the same. -/
theorem C81_learn (eig : Eig) (n : Nat) (hn : 1 ≤ n) (x y : SnVec) (hx : SnVec.Ok n x) (hy : SnVec.Ok n y) :
    cgVecF eig x y = cgVec eig x y :=
  cgVecWith_congr fun P hP Q hQ R offs => cgAccAnyF_eq eig hn
    ⟨fun S hS => by rw [List.mem_singleton.1 hS]; exact hx.part P hP, by simp⟩
    ⟨fun S hS => by rw [List.mem_singleton.1 hS]; exact hy.part Q hQ, by simp⟩ R offs

/-- **C81.** Likewise for parts. -/
theorem C81_learn_parts (eig : Eig) (n : Nat) (hn : 1 ≤ n) (x y : VPart) (hx : SnVec.Ok n [x]) (hy : SnVec.Ok n [y]) :
    cgPartsF eig x y = cgParts eig x y := by
  unfold cgPartsF cgParts
  simp only [cgAccAnyF_eq eig hn hx hy]

/-- **C81.** So with an eigensolver that does what it should, the product of batches with one column for each part is defined, and keeps
inner products member by member. -/
theorem C81_inner_products {eig : Eig} (he : EigOk eig) (n b : Nat) (hn : 1 ≤ n) (hN : n ≤ 1234567) (x y x' y' : SnVecB)
    (hx : Ok n b x) (hy : Ok n b y) (hx' : Ok n b x') (hy' : Ok n b y') (hx0 : x ≠ []) (hy0 : y ≠ []) (hb : 1 ≤ b)
    (mx : ∀ P ∈ x, P.m = 1) (my : ∀ P ∈ y, P.m = 1) (sx : x.map (fun P => (P.irrep.lambda, P.m)) = x'.map fun P => (P.irrep.lambda, P.m))
    (sy : y.map (fun P => (P.irrep.lambda, P.m)) = y'.map fun P => (P.irrep.lambda, P.m)) :
    ∃ R R', cgVecB eig x y = some R ∧ cgVecB eig x' y' = some R' ∧ Ok n b R ∧ Ok n b R' ∧ ∀ k < b,
      SnVec.dot (member R k) (member R' k) = SnVec.dot (member x k) (member x' k) * SnVec.dot (member y k) (member y' k) := by
  have hx0' : x' ≠ [] := by rintro rfl; simp at sx; exact hx0 sx
  have hy0' : y' ≠ [] := by rintro rfl; simp at sy; exact hy0 sy
  have st : ∀ {v w : SnVecB} (k : Nat), v.map (fun P => (P.irrep.lambda, P.m)) = w.map (fun P => (P.irrep.lambda, P.m)) →
      SnVec.SameType (member v k) (member w k) := by
    intro v w k h
    unfold SnVec.SameType member
    rw [List.map_map, List.map_map]
    exact h
  have one : ∀ {v : SnVecB} (k : Nat), (∀ P ∈ v, P.m = 1) → ∀ P ∈ member v k, P.m = 1 := by
    intro v k h P hP
    obtain ⟨Q, hQ, rfl⟩ := List.mem_map.1 hP
    exact h Q hQ
  obtain ⟨m1, a1⟩ := C81_members eig n b hn x y hx hy hx0 hy0
  obtain ⟨m2, a2⟩ := C81_members eig n b hn x' y' hx' hy' hx0' hy0'
  have key : ∀ k < b, ∃ R R', cgVecB eig x y = some R ∧ cgVecB eig x' y' = some R' ∧ SnVec.Ok n (member R k) ∧ SnVec.Ok n (member R' k) ∧
      SnVec.dot (member R k) (member R' k) = SnVec.dot (member x k) (member x' k) * SnVec.dot (member y k) (member y' k) := by
    intro k hk
    obtain ⟨U, U', c1, c2, c3, c4, -, -, c5⟩ := C69_inner_products he hn hN (hx.member k) (hy.member k) (hx'.member k) (hy'.member k)
      (one k mx) (one k my) (st k sx) (st k sy)
    rw [← m1 k hk] at c1
    rw [← m2 k hk] at c2
    obtain ⟨R, d1, rfl⟩ := Option.map_eq_some_iff.1 c1
    obtain ⟨R', d2, rfl⟩ := Option.map_eq_some_iff.1 c2
    exact ⟨R, R', d1, d2, c3, c4, c5⟩
  obtain ⟨R, R', d1, d2, o1, o2, -⟩ := key 0 hb
  refine ⟨R, R', d1, d2, ok_of_member (a1 R d1) o1, ok_of_member (a2 R' d2) o2, fun k hk => ?_⟩
  obtain ⟨S, S', e1, e2, -, -, e3⟩ := key k hk
  rw [Option.some.inj (d1.symm.trans e1), Option.some.inj (d2.symm.trans e2)]
  exact e3

/-- **C81.** Batches of different sizes are refused, as vectors and as parts, before any table is looked up. -/
theorem C81_sizes (eig : Eig) {b c : Nat} (hbc : b ≠ c) :
    (∀ (x y : SnVecB), (∀ P ∈ x, P.b = b) → (∀ Q ∈ y, Q.b = c) → cgVecB eig x y = none) ∧
      (∀ (x y : BPart), x.b = b → y.b = c → cgPartsB eig x y = none) ∧
      ∀ (R : SnVecB) (offs : SnType) (x y : BPart), x.b = b → y.b = c → cgAccAnyB eig R offs x y = none := by
  refine ⟨fun x y hx hy => ?_, fun x y hx hy => ?_, fun R offs x y hx hy => ?_⟩
  · have h : sameb2 x y = none := by
      unfold sameb2 getb
      cases x with
      | nil => rfl
      | cons P x =>
        cases y with
        | nil => rfl
        | cons Q y => simp [hx P (by simp), hy Q (by simp), hbc]
    unfold cgVecB cgVecWithB
    rw [h]; rfl
  · unfold cgPartsB
    rw [if_neg (by rw [hx, hy]; exact hbc)]
  · have h : sameb3 R x y = none := by
      unfold sameb3 getb
      cases R with
      | nil => rfl
      | cons P R =>
        simp only [List.head?_cons, Option.map_some, Option.bind_eq_bind, Option.bind_some, hx, hy]
        rw [if_neg]
        rintro ⟨e1, e2⟩
        exact hbc (e1.symm.trans e2)
    unfold cgAccAnyB
    rcases IP.getn x.irrep.lambda with _ | _ | n
    · rfl
    · unfold cgAccB; rw [h]; rfl
    · unfold cgAccB; rw [h]; rfl

/-! ## Examples -/


/-- a batch of two vectors over `S_3` -/
noncomputable def exVecB (s t : Nat → ℝ) : SnVecB := [mkB 2 [2, 1] 1 fun b i _ => if i = 0 then s b else t b]

theorem exVecB_member (s t : Nat → ℝ) (k : Nat) : member (exVecB s t) k = exVec (s k) (t k) := rfl

theorem exVecB_ok (s t : Nat → ℝ) : Ok 3 2 (exVecB s t) :=
  ok_of_member (k := 0) (fun P hP => by rw [List.mem_singleton.1 hP]; rfl) (by rw [exVecB_member]; exact exVec_ok _ _)

/-- the square of the length of the second member of a product is 10 * 25 -/
example : ∃ R, cgVecB eigS (exVecB (fun k => k) fun _ => 3) (exVecB (fun _ => 3) fun _ => 4) = some R ∧ SnVec.dot (member R 1) (member R 1) = 250 := by
  obtain ⟨R, R', h1, h2, -, -, h3⟩ := C81_inner_products eigS_ok 3 2 (by norm_num) (by norm_num) (exVecB (fun k => k) fun _ => 3)
    (exVecB (fun _ => 3) fun _ => 4) (exVecB (fun k => k) fun _ => 3) (exVecB (fun _ => 3) fun _ => 4) (exVecB_ok _ _) (exVecB_ok _ _)
    (exVecB_ok _ _) (exVecB_ok _ _) (by simp [exVecB]) (by simp [exVecB]) (by norm_num) (by simp [exVecB, mkB]) (by simp [exVecB, mkB]) rfl rfl
  obtain rfl : R' = R := Option.some.inj (h2.symm.trans h1)
  refine ⟨R', h1, ?_⟩
  rw [h3 1 (by norm_num), exVecB_member, exVecB_member, exVec_dot, exVec_dot]
  norm_num

example : cgVecF eigS (exVec 1 2) (exVec 3 4) = cgVec eigS (exVec 1 2) (exVec 3 4) :=
  C81_learn eigS 3 (by norm_num) _ _ (exVec_ok 1 2) (exVec_ok 3 4)

end Snob.Props
