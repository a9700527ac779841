import Verif.Proofs.CGFour
import Verif.Props.CGVec

/-! # Properties C72, C73: Clebsch-Gordan products with the trivial part; products and the action -/

namespace Snob.Props

open Snob SnVec IP

theorem cgsg_unit {eig : Eig} (h : ∀ c : ℝ, (eig 1 fun _ _ => c).1 0 0 = 1) (n : Nat) (p : List Nat) : cgsg eig n p = 1 := by
  have hu : ∀ c, usg eig c = 1 := h
  unfold cgsg boxsg
  simp [hu]

section
variable {eig : Eig} (he : EigOk eig) {n : Nat} (hn : 1 ≤ n) (hN : n ≤ 1234567)
include he hn hN

/-- a product that is a multiple, by part, of a vector -/
theorem scaled_of {x y z : SnVec} (hx : Ok n x) (hy : Ok n y) (hz : Ok n z) (mx : ∀ P ∈ x, P.m = 1) (my : ∀ P ∈ y, P.m = 1) (mz : ∀ P ∈ z, P.m = 1)
    {s : List Nat → ℝ} (ht : ∀ p, IsPartition n p → tot n (prs (vkeys x) (vkeys y)) p = if p ∈ vkeys z then 1 else 0)
    (hv : ∀ p ∈ vkeys z, ∀ a ∈ vkeys x, ∀ b ∈ vkeys y, ∀ d < kronN n a b p, ∀ r < dimOf p,
      prodVal (cgPhi eig n) a b p r d ((partAt x a).data · 0) ((partAt y b).data · 0) = s p * (partAt z p).data r 0) :
    ∃ R, cgVec eig x y = some R ∧ Ok n R ∧ SameType R z ∧
      ∀ (k : Nat) (P Q : VPart), R[k]? = some P → z[k]? = some Q → ∀ i < Q.d, P.data i 0 = s Q.irrep.lambda * Q.data i 0 := by
  obtain ⟨R, e, h1, h2, h3, h4⟩ := vec_ok' hn (accAny_ok he hn hN) hx hy mx my
  have hk : vkeys R = vkeys z := keys_eq h1 hz fun p => by
    rw [h2 p]
    constructor
    · rintro ⟨hp, h⟩
      rw [ht p hp] at h
      by_contra hc
      rw [if_neg hc] at h
      omega
    · intro hp
      have hp' := vkeys_part hz hp
      exact ⟨hp', by rw [ht p hp', if_pos hp]; omega⟩
  have sT : SameType R z := sameType_of h1 hz hk fun p hp => by
    rw [h3 p hp, ht p (vkeys_part h1 hp), if_pos (hk ▸ hp), partAt_m hz mz (hk ▸ hp)]
  refine ⟨R, e, h1, sT, fun k P Q hP hQ i hi => ?_⟩
  have mQ := List.mem_of_getElem? hQ
  have qk : Q.irrep.lambda ∈ vkeys z := List.mem_map.2 ⟨Q, mQ, rfl⟩
  have pl : P.irrep.lambda = Q.irrep.lambda := by
    have a1 : (vkeys R)[k]? = some P.irrep.lambda := by rw [List.getElem?_map, hP]; rfl
    have a2 : (vkeys z)[k]? = some Q.irrep.lambda := by rw [List.getElem?_map, hQ]; rfl
    rw [hk, a2] at a1
    exact (Option.some.inj a1).symm
  have pP : partAt R Q.irrep.lambda = P := by rw [← pl, partAt_of_mem h1.nodup (List.mem_of_getElem? hP)]
  have pQ : partAt z Q.irrep.lambda = Q := partAt_of_mem hz.nodup mQ
  have hi' : i < dimOf Q.irrep.lambda := by rw [← part_d hz mQ]; exact hi
  have hc : 0 < tot n (prs (vkeys x) (vkeys y)) Q.irrep.lambda := by rw [ht _ (vkeys_part hz qk), if_pos qk]; omega
  have := h4 _ (hk ▸ qk) i hi' 0 hc
  have hl := loc_mem hc
  have hm := mem_prs.1 hl.1
  rw [hv _ qk _ hm.1 _ hm.2 _ hl.2 i hi', pP, pQ] at this
  exact this

/-- **C72.** The product with a multiple of the trivial part, from either side, is that multiple of the other vector, up to one
sign for each part, that depends on the signs of the eigenvectors the solver returns for matrices with one entry. -/
theorem C72_unit : ∃ s : List Nat → ℝ, (∀ p, s p = 1 ∨ s p = -1) ∧ ((∀ c : ℝ, (eig 1 fun _ _ => c).1 0 0 = 1) → ∀ p, s p = 1) ∧
    ∀ (T : VPart), Ok n [T] → T.irrep.lambda = [n] → T.m = 1 → ∀ (x : SnVec), Ok n x → (∀ P ∈ x, P.m = 1) →
      (∃ R, cgVec eig [T] x = some R ∧ Ok n R ∧ SameType R x ∧ ∀ (k : Nat) (P Q : VPart), R[k]? = some P → x[k]? = some Q →
        ∀ i < Q.d, P.data i 0 = s Q.irrep.lambda * T.data 0 0 * Q.data i 0) ∧
      ∃ R, cgVec eig x [T] = some R ∧ Ok n R ∧ SameType R x ∧ ∀ (k : Nat) (P Q : VPart), R[k]? = some P → x[k]? = some Q →
        ∀ i < Q.d, P.data i 0 = s Q.irrep.lambda * T.data 0 0 * Q.data i 0 := by
  refine ⟨cgsg eig n, fun p => mul_self_eq_one_iff.1 (cgsg_sq he n p), fun h => cgsg_unit h n, fun T hT lT mT x hx mx => ?_⟩
  have kT : vkeys [T] = [[n]] := by simp [vkeys, lT]
  have pT : partAt [T] [n] = T := by
    have := partAt_of_mem hT.nodup (P := T) (by simp)
    rwa [lT] at this
  have mT' : ∀ P ∈ [T], P.m = 1 := by simpa using mT
  have count : ∀ p, IsPartition n p → ((vkeys x).map fun q => (kronN n [n] q p : Int)).sum = if p ∈ vkeys x then 1 else 0 := by
    intro p hp
    have e : (vkeys x).map (fun q => (kronN n [n] q p : Int)) = (vkeys x).map fun q => if q = p then (1 : Int) else 0 := by
      refine List.map_congr_left fun q hq => ?_
      rw [kronN_row hn (vkeys_part hx hq) hp]
      split_ifs <;> rfl
    rw [e, ← List.sum_toFinset _ hx.nodup, Finset.sum_ite_eq']
    exact if_congr List.mem_toFinset rfl rfl
  have only : ∀ {p q}, p ∈ vkeys x → q ∈ vkeys x → ∀ {d}, d < kronN n [n] q p → q = p ∧ d = 0 := by
    intro p q hp hq d hd
    rw [kronN_row hn (vkeys_part hx hq) (vkeys_part hx hp)] at hd
    split_ifs at hd with h
    · exact ⟨h, by omega⟩
    · omega
  have d1 : dimOf [n] = 1 := dimOf_row hn
  constructor
  · refine scaled_of he hn hN hT hx hx mT' mx mx (s := fun p => cgsg eig n p * T.data 0 0) (fun p hp => ?_) fun p hp a ha b hb d hd r hr => ?_
    · have := tot_prs n [[n]] (vkeys x) p
      rw [List.map_cons, List.map_nil, List.sum_cons, List.sum_nil, add_zero, count p hp] at this
      rw [kT]
      split_ifs at this ⊢ <;> exact_mod_cast this
    · rw [kT, List.mem_singleton] at ha
      subst ha
      obtain ⟨rfl, rfl⟩ := only hp hb hd
      unfold prodVal
      rw [sum_XI (a := [n]) (b := b) (fun i j => cgPhi eig n [n] b b r 0 i j * ((partAt [T] [n]).data i 0 * (partAt x b).data j 0)), d1,
        Finset.sum_range_one, Finset.sum_congr rfl fun j hj => by rw [phi_row_left he hn (vkeys_part hx hp) hr (Finset.mem_range.1 hj), ite_mul, zero_mul],
        Finset.sum_ite_eq', if_pos (Finset.mem_range.2 hr), pT]
      ring
  · refine scaled_of he hn hN hx hT hx mx mT' mx (s := fun p => cgsg eig n p * T.data 0 0) (fun p hp => ?_) fun p hp a ha b hb d hd r hr => ?_
    · have := tot_prs n (vkeys x) [[n]] p
      simp only [List.map_cons, List.map_nil, List.sum_cons, List.sum_nil, add_zero] at this
      rw [List.map_congr_left fun q _ => by rw [kronN_swap12 n q [n] p], count p hp] at this
      rw [kT]
      split_ifs at this ⊢ <;> exact_mod_cast this
    · rw [kT, List.mem_singleton] at hb
      subst hb
      rw [kronN_swap12] at hd
      obtain ⟨rfl, rfl⟩ := only hp ha hd
      unfold prodVal
      rw [sum_XI (a := a) (b := [n]) (fun i j => cgPhi eig n a [n] a r 0 i j * ((partAt x a).data i 0 * (partAt [T] [n]).data j 0)), d1,
        Finset.sum_congr rfl fun i hi => by
          rw [Finset.sum_range_one, phi_row_right he hn (vkeys_part hx hp) hr (Finset.mem_range.1 hi), ite_mul, zero_mul],
        Finset.sum_ite_eq', if_pos (Finset.mem_range.2 hr), pT]
      ring

/-- **C73.** The full statement would be this one for every `n` (up to 1234567): the product of two vectors acted on by a
permutation is the product acted on by it. It is proved for `n` up to three; it is false for every `n` from five on
(`C73_not_equivariant`); with four letters it depends on the signs of the eigenvectors (`C73_not_equivariant_four`). -/
theorem C73_equivariant_partial (h3 : n ≤ 3) {x y : SnVec} (hx : Ok n x) (hy : Ok n y) (mx : ∀ P ∈ x, P.m = 1) (my : ∀ P ∈ y, P.m = 1)
    {a : Arr} (ha : IsPerm n a) :
    ∃ S R', (do let x' ← x.apply a; let y' ← y.apply a; cgVec eig x' y') = some S ∧ (do let R ← cgVec eig x y; R.apply a) = some R' ∧ obs S = obs R' := by
  obtain ⟨σ, rfl⟩ := ha
  have hΦ : EquiPhi n (cgPhi eig n) := by
    rcases (by omega : n = 1 ∨ n = 2 ∨ n = 3) with rfl | rfl | rfl
    · exact equi_one eig
    · exact equi_two he
    · exact equi_three he
  obtain ⟨x', y', R, R', S, h1, h2, h3, h4, h5, h6⟩ := equi_of hn (accAny_ok he hn hN) hΦ hx hy mx my σ
  refine ⟨S, R', ?_, ?_, h6⟩
  · simp only [h1, h2, Option.bind_eq_bind, Option.bind_some]
    exact h5
  · simp only [Option.bind_eq_bind]
    exact Option.bind_eq_some_iff.2 ⟨R, h3, h4⟩

end

/-- **C73.** From five letters on the product does not commute with the action: whatever the solver there are two parts with
one column each, and a permutation, such that both orders are defined and have different results. -/
theorem C73_not_equivariant {eig : Eig} (he : EigOk eig) {n : Nat} (hn : 5 ≤ n) (hN : n ≤ 1234567) :
    ∃ (P Q : VPart) (a : Arr), Ok n [P] ∧ Ok n [Q] ∧ P.m = 1 ∧ Q.m = 1 ∧ IsPerm n a ∧
      ∃ S R', (do let x' ← SnVec.apply [P] a; let y' ← SnVec.apply [Q] a; cgVec eig x' y') = some S ∧
        (do let R ← cgVec eig [P] [Q]; R.apply a) = some R' ∧ obs S ≠ obs R' := by
  by_contra hcon
  refine not_equi he hn (equi_phi (by omega) (accAny_ok he (by omega) hN) fun P Q σ hP hQ mP mQ x' y' R R' S h1 h2 h3 h4 h5 => ?_)
  by_contra hne
  refine hcon ⟨P, Q, enc σ, hP, hQ, mP, mQ, ⟨σ, rfl⟩, S, R', ?_, ?_, hne⟩
  · simp only [h1, h2, Option.bind_eq_bind, Option.bind_some]
    exact h5
  · simp only [Option.bind_eq_bind]
    exact Option.bind_eq_some_iff.2 ⟨R, h3, h4⟩

/-- **C73.** With four letters the answer depends on the solver: beside every solver there is one that returns the same
eigenvalues, and the same eigenvectors up to one sign for each call, with which the product does not commute with the action. -/
theorem C73_not_equivariant_four {eig : Eig} (he : EigOk eig) : ∃ eig' : Eig, EigOk eig' ∧
    (∀ k M, (eig' k M).2 = (eig k M).2 ∧ ((eig' k M).1 = (eig k M).1 ∨ (eig' k M).1 = -(eig k M).1)) ∧
    ∃ (P Q : VPart) (a : Arr), Ok 4 [P] ∧ Ok 4 [Q] ∧ P.m = 1 ∧ Q.m = 1 ∧ IsPerm 4 a ∧
      ∃ S R', (do let x' ← SnVec.apply [P] a; let y' ← SnVec.apply [Q] a; cgVec eig' x' y') = some S ∧
        (do let R ← cgVec eig' [P] [Q]; R.apply a) = some R' ∧ obs S ≠ obs R' := by
  by_contra hcon
  have key : ∀ eig' : Eig, EigOk eig' → (∀ k M, (eig' k M).2 = (eig k M).2 ∧ ((eig' k M).1 = (eig k M).1 ∨ (eig' k M).1 = -(eig k M).1)) →
      EquiPhi 4 (cgPhi eig' 4) := by
    intro eig' he' hs
    refine equi_phi (by omega) (accAny_ok he' (by omega) (by omega)) fun P Q σ hP hQ mP mQ x' y' R R' S h1 h2 h3 h4 h5 => ?_
    by_contra hne
    refine hcon ⟨eig', he', hs, P, Q, enc σ, hP, hQ, mP, mQ, ⟨σ, rfl⟩, S, R', ?_, ?_, hne⟩
    · simp only [h1, h2, Option.bind_eq_bind, Option.bind_some]
      exact h5
    · simp only [Option.bind_eq_bind]
      exact Option.bind_eq_some_iff.2 ⟨R, h3, h4⟩
  refine not_equi_four he ⟨key eig he fun k M => ⟨rfl, Or.inl rfl⟩, key _ (flip3_ok he) fun k M => ?_⟩
  unfold flip3
  split_ifs
  · exact ⟨rfl, Or.inr rfl⟩
  · exact ⟨rfl, Or.inl rfl⟩

/-! ## Examples -/

/-- twice the trivial part times (3,4) is plus or minus (6,8) -/
example : ∃ R, cgVec eigS [mkP [3] 1 fun _ _ => 2] (exVec 3 4) = some [R] ∧ ((R.data 0 0 = 6 ∧ R.data 1 0 = 8) ∨ (R.data 0 0 = -6 ∧ R.data 1 0 = -8)) := by
  have h3 : IsPartition 3 [3] := isPartition_row (by norm_num)
  obtain ⟨s, s1, -, h⟩ := C72_unit eigS_ok (n := 3) (by norm_num) (by norm_num)
  obtain ⟨⟨R, e, hR, sT, hv⟩, -⟩ := h (mkP [3] 1 fun _ _ => 2)
    (ok_map (L := [[3]]) (by norm_num) (by simpa using h3) (by simp) (fun _ => 1) fun _ _ _ => 2)
    (irrOf_spec (by norm_num) h3).2.1 rfl (exVec 3 4) (exVec_ok 3 4) (by simp [exVec, mkP])
  have hl : R.length = 1 := by have := congrArg List.length sT; simpa [exVec] using this
  obtain ⟨P, rfl⟩ := List.length_eq_one_iff.1 hl
  refine ⟨P, e, ?_⟩
  have hd : (mkP [2, 1] 1 fun i _ => if i = 0 then (3 : ℝ) else 4).d = 2 := dimOf_ex.1
  have v0 := hv 0 P _ rfl rfl 0 (by rw [hd]; norm_num)
  have v1 := hv 0 P _ rfl rfl 1 (by rw [hd]; norm_num)
  simp only [mkP] at v0 v1
  rw [v0, v1]
  rcases s1 (irrOf [2, 1]).lambda with h | h <;> rw [h] <;> norm_num

/-- the vectors (1,2) and (3,4) of `(2,1)`, and the cycle 1→2→3→1 -/
example : ∃ S R', (do let x' ← (exVec 1 2).apply [some 2, some 3, some 1]; let y' ← (exVec 3 4).apply [some 2, some 3, some 1]; cgVec eigS x' y') = some S ∧
    (do let R ← cgVec eigS (exVec 1 2) (exVec 3 4); R.apply [some 2, some 3, some 1]) = some R' ∧ obs S = obs R' :=
  C73_equivariant_partial eigS_ok (n := 3) (by norm_num) (by norm_num) (by norm_num) (exVec_ok 1 2) (exVec_ok 3 4)
    (by simp [exVec, mkP]) (by simp [exVec, mkP]) ⟨cyc 0 2, by decide⟩

example : ∃ (P Q : VPart) (a : Arr), Ok 6 [P] ∧ Ok 6 [Q] ∧ P.m = 1 ∧ Q.m = 1 ∧ IsPerm 6 a ∧
    ∃ S R', (do let x' ← SnVec.apply [P] a; let y' ← SnVec.apply [Q] a; cgVec eigS x' y') = some S ∧
      (do let R ← cgVec eigS [P] [Q]; R.apply a) = some R' ∧ obs S ≠ obs R' :=
  C73_not_equivariant eigS_ok (by norm_num) (by norm_num)

example : ∃ eig : Eig, EigOk eig ∧ ∃ (P Q : VPart) (a : Arr), Ok 4 [P] ∧ Ok 4 [Q] ∧ IsPerm 4 a ∧
    ∃ S R', (do let x' ← SnVec.apply [P] a; let y' ← SnVec.apply [Q] a; cgVec eig x' y') = some S ∧
      (do let R ← cgVec eig [P] [Q]; R.apply a) = some R' ∧ obs S ≠ obs R' := by
  obtain ⟨eig, h, -, P, Q, a, h1, h2, -, -, h3, h4⟩ := C73_not_equivariant_four eigS_ok
  exact ⟨eig, h, P, Q, a, h1, h2, h3, h4⟩

end Snob.Props
