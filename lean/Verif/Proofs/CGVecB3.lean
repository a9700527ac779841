import Verif.Proofs.CGVecB2

/-! Clebsch-Gordan products of batched vectors, member by member; `learn` as it is written. -/

namespace Snob

open IP SnVecB

theorem cgTau_ne {n : Nat} (hn : 1 ≤ n) {a b : List Nat} (ha : IsPartition n a) (hb : IsPartition n b) : cgTau a b ≠ some [] := by
  intro h
  obtain ⟨s, t, h1, ht, -⟩ := CGState.ok_empty.product hn ha hb
  unfold cgTau at h
  rw [h1] at h
  obtain rfl : t = [] := Option.some.inj h
  have h2 := sum_kron_dim ha hb
  have h3 : ∀ r : Pt n, kron ha hb r.2 = 0 := by
    intro r
    rw [← kronN_eq]
    by_contra h0
    have h4 : 0 < kronN n a b r.1 := Nat.pos_of_ne_zero fun h => h0 (by rw [h]; norm_num)
    have := (ht.mem r.1).2 ⟨r.2, h4⟩
    simp [parts] at this
  simp only [h3, zero_mul, Finset.sum_const_zero] at h2
  have da : 0 < dimW n a := by rw [← dimOf_eq hn ha]; exact dimOf_pos hn ha
  have db : 0 < dimW n b := by rw [← dimOf_eq hn hb]; exact dimOf_pos hn hb
  have : (0 : ℝ) < (dimW n a : ℝ) * (dimW n b : ℝ) := by positivity
  linarith

theorem accumulateUp_nil {offs : SnType} {sub : SnVec} {tau : SnType} (h : tau ≠ []) : SnVec.accumulateUp [] offs sub tau = none := by
  cases tau with
  | nil => exact absurd rfl h
  | cons p t => rfl

theorem cgAcc_nil (eig : Eig) {n : Nat} (hn : 1 ≤ n) (offs : SnType) {x y : VPart} (hx : IsPartition n x.irrep.lambda)
    (hy : IsPartition n y.irrep.lambda) : cgAcc eig n [] offs x y = none := by
  match n, hn with
  | 1, _ =>
    unfold cgAcc
    split <;> rfl
  | m + 2, hn =>
    rw [cgAcc]
    split
    · cases e : cgTau x.irrep.lambda y.irrep.lambda with
      | none => cases SnVec.downB x <;> cases SnVec.downB y <;> simp
      | some tau =>
        have hne : tau ≠ [] := by rintro rfl; exact cgTau_ne (by omega) hx hy e
        simp only [Option.bind_eq_bind, Option.bind_some, accumulateUp_nil hne]
        simp
    · rfl

theorem getb_allB {b : Nat} {R : SnVecB} (hR : AllB b R) : getb R = if R = [] then none else some b := by
  cases R with
  | nil => rfl
  | cons P R => simp [getb]; exact hR P (by simp)

theorem simAcc (eig : Eig) {n : Nat} (hn : 1 ≤ n) : SimAcc n (cgAccB eig n) (cgAcc eig n) := by
  obtain ⟨m, rfl⟩ : ∃ m, n = m + 1 := ⟨n - 1, by omega⟩
  induction m with
  | zero =>
    intro b x y hxb hyb hx hy ix iy dx dy R hR offs
    by_cases hR0 : R = []
    · subst hR0
      exact ⟨fun k _ => ((cgAcc_nil eig hn offs (x := x.member k) (y := y.member k) hx hy).symm ▸ rfl), fun s h => by simp [cgAccB, sameb3, getb] at h⟩
    · have hsb : sameb3 R x y = some b := by
        unfold sameb3; rw [getb_allB hR, if_neg hR0]; simp [hxb, hyb]
      have hg : IP.getn y.irrep.lambda = 1 := by rw [getn_eq]; exact hy.sum
      have hA : ∀ k, cgAcc eig 1 (member R k) offs (x.member k) (y.member k) = (do
          let P ← (member R k)[0]?
          let P ← oneV (x.member k) (y.member k) P
          let offs ← SnType.add offs [1] (x.m * y.m)
          some ((member R k).set 0 P, offs)) := by
        intro k
        rw [cgAcc]
        exact if_pos hg
      have hB : cgAccB eig 1 R offs x y = (do
          let P ← R[0]?
          let P ← (List.range b).foldlM (fun P b => oneB x y b P) P
          let offs ← SnType.add offs [1] (x.m * y.m)
          some (R.set 0 P, offs)) := by
        rw [cgAccB, hsb]
        exact if_pos hg
      obtain ⟨P, hP⟩ : ∃ P, R[0]? = some P := by
        cases R with
        | nil => exact absurd rfl hR0
        | cons P R => exact ⟨P, rfl⟩
      constructor
      · intro k hk
        obtain ⟨l1, l2⟩ := oneLoop_member hxb hyb (hR.get hP) hk
        rw [show (0 + 1 : Nat) = 1 from rfl, hA, hB, member_get, hP]
        simp only [Option.bind_eq_bind, Option.bind_some, Option.map_some]
        rw [← l1]
        cases (List.range b).foldlM (fun P b => oneB x y b P) P with
        | none => rfl
        | some Q =>
          simp only [Option.bind_some, Option.map_some]
          cases SnType.add offs [1] (x.m * y.m) with
          | none => rfl
          | some o =>
            simp only [Option.bind_some, Option.map_some, member_set]
      · intro s h
        rw [show (0 + 1 : Nat) = 1 from rfl, hB, hP] at h
        simp only [Option.bind_eq_bind, Option.bind_some] at h
        obtain ⟨Q, h1, h⟩ := Option.bind_eq_some_iff.1 h
        obtain ⟨o, -, h⟩ := Option.bind_eq_some_iff.1 h
        rw [Option.some.injEq] at h
        rw [← h]
        refine hR.set 0 ?_
        by_cases hb : 0 < b
        · exact (oneLoop_member hxb hyb (hR.get hP) hb).2 Q h1
        · obtain rfl : b = 0 := by omega
          simp at h1
          rw [← h1]; exact hR.get hP
  | succ m ih =>
    have ih : SimAcc (m + 1) (cgAccB eig (m + 1)) (cgAcc eig (m + 1)) := @ih (by omega)
    intro b x y hxb hyb hx hy ix iy dx dy R hR offs
    by_cases hR0 : R = []
    · subst hR0
      refine ⟨fun k _ => ?_, fun s h => by simp [cgAccB, sameb3, getb] at h⟩
      have := cgAcc_nil eig hn offs (x := x.member k) (y := y.member k) hx hy
      rw [show member [] k = [] from rfl, this]
      rfl
    · have hsb : sameb3 R x y = some b := by
        unfold sameb3; rw [getb_allB hR, if_neg hR0]; simp [hxb, hyb]
      have hg : IP.getn y.irrep.lambda = m + 2 := by rw [getn_eq]; exact hy.sum
      have ox : Ok (m + 2) b [x] := ok_single hxb hx ix dx
      have oy : Ok (m + 2) b [y] := ok_single hyb hy iy dy
      obtain ⟨xs, x1, x2, x3⟩ := SnVecB.down_ok (by omega) ox
      obtain ⟨ys, y1, y2, y3⟩ := SnVecB.down_ok (by omega) oy
      obtain ⟨v1, v2⟩ := cgVecWithB_member ih x2 y2 (down_ne (by omega) ox x1) (down_ne (by omega) oy y1)
      have hA : ∀ k, cgAcc eig (m + 2) (member R k) offs (x.member k) (y.member k) = (do
          let sub ← cgVecWith (cgAcc eig (m + 1)) (member xs k) (member ys k)
          let tau ← cgTau x.irrep.lambda y.irrep.lambda
          let dt ← SnType.down tau
          let sl ← learn eig (cgVecWith (cgAcc eig (m + 1))) (m + 2) x.irrep.lambda y.irrep.lambda tau dt
          let st ← twist sub sl.2 dt
          SnVec.accumulateUp (member R k) offs st tau) := by
        intro k
        rw [cgAcc]
        refine (if_pos hg).trans ?_
        simp only [Option.bind_eq_bind, x3, y3, Option.bind_some]
        rfl
      have hB : cgAccB eig (m + 2) R offs x y = (do
          let sub ← cgVecWithB (cgAccB eig (m + 1)) xs ys
          let tau ← cgTau x.irrep.lambda y.irrep.lambda
          let dt ← SnType.down tau
          let sl ← learn eig (cgVecWith (cgAcc eig (m + 1))) (m + 2) x.irrep.lambda y.irrep.lambda tau dt
          let st ← twistB sub sl.2 dt
          SnVecB.accumulateUp R offs st tau) := by
        rw [cgAccB, hsb]
        refine (if_pos hg).trans ?_
        simp only [Option.bind_eq_bind, x1, y1, Option.bind_some, learnB_eq eig (by omega : 1 ≤ m + 1) ih hx hy]
      rw [show m + 1 + 1 = m + 2 from rfl]
      constructor
      · intro k hk
        rw [hA, hB, ← v1 k hk]
        cases e : cgVecWithB (cgAccB eig (m + 1)) xs ys with
        | none => rfl
        | some sub =>
          simp only [Option.bind_eq_bind, Option.bind_some, Option.map_some]
          cases cgTau x.irrep.lambda y.irrep.lambda with
          | none => rfl
          | some tau =>
            simp only [Option.bind_some]
            cases SnType.down tau with
            | none => rfl
            | some dt =>
              simp only [Option.bind_some]
              cases learn eig (cgVecWith (cgAcc eig (m + 1))) (m + 2) x.irrep.lambda y.irrep.lambda tau dt with
              | none => rfl
              | some sl =>
                simp only [Option.bind_some]
                obtain ⟨t1, t2⟩ := twistB_member (v2 sub e) sl.2 dt k
                rw [← t1]
                cases e2 : twistB sub sl.2 dt with
                | none => rfl
                | some st => exact accumulateUp_member (t2 st e2) k tau R hR offs
      · intro s h
        rw [hB] at h
        obtain ⟨sub, -, h⟩ := Option.bind_eq_some_iff.1 h
        obtain ⟨tau, -, h⟩ := Option.bind_eq_some_iff.1 h
        obtain ⟨dt, -, h⟩ := Option.bind_eq_some_iff.1 h
        obtain ⟨sl, -, h⟩ := Option.bind_eq_some_iff.1 h
        obtain ⟨st, -, h⟩ := Option.bind_eq_some_iff.1 h
        exact accumulateUp_allB hR h

theorem simAccAny (eig : Eig) {n : Nat} (hn : 1 ≤ n) : SimAcc n (cgAccAnyB eig) (cgAccAny eig) := by
  intro b x y hxb hyb hx hy ix iy dx dy R hR offs
  have hg : IP.getn x.irrep.lambda = n := by rw [getn_eq]; exact hx.sum
  have h1 : cgAccAnyB eig R offs x y = cgAccB eig n R offs x y := by unfold cgAccAnyB; rw [hg]
  have h2 : ∀ k, cgAccAny eig (member R k) offs (x.member k) (y.member k) = cgAcc eig n (member R k) offs (x.member k) (y.member k) := by
    intro k; unfold cgAccAny; rw [show (x.member k).irrep.lambda = x.irrep.lambda from rfl, hg]
  rw [h1]
  simp only [h2]
  exact simAcc eig hn hxb hyb hx hy ix iy dx dy R hR offs

theorem cgVecWith_congr {acc acc' : SnVec → SnType → VPart → VPart → Option (SnVec × SnType)} {x y : SnVec}
    (h : ∀ P ∈ x, ∀ Q ∈ y, ∀ R offs, acc R offs P Q = acc' R offs P Q) : cgVecWith acc x y = cgVecWith acc' x y := by
  have e : ∀ s, x.foldlM (fun s P => y.foldlM (fun s Q => acc s.1 s.2 P Q) s) s = x.foldlM (fun s P => y.foldlM (fun s Q => acc' s.1 s.2 P Q) s) s := by
    intro s
    have := foldlM_proj id (fun s P => y.foldlM (fun s Q => acc s.1 s.2 P Q) s) (fun s P => y.foldlM (fun s Q => acc' s.1 s.2 P Q) s)
      (fun _ => True) x (fun s _ P hP => by
        have := foldlM_proj id (fun s Q => acc s.1 s.2 P Q) (fun s Q => acc' s.1 s.2 P Q) (fun _ => True) y
          (fun s _ Q hQ => by rw [Option.map_id]; exact h P hP Q hQ _ _) (fun _ _ _ _ _ _ => trivial) s trivial
        exact this) (fun _ _ _ _ _ _ => trivial) s trivial
    rw [Option.map_id] at this
    exact this
  unfold cgVecWith
  simp only [e]

theorem cgAccF_eq (eig : Eig) {n : Nat} (hn : 1 ≤ n) {x y : VPart} (hx : SnVec.Ok n [x]) (hy : SnVec.Ok n [y]) (R : SnVec) (offs : SnType) :
    cgAccF eig n R offs x y = cgAcc eig n R offs x y := by
  obtain ⟨m, rfl⟩ : ∃ m, n = m + 1 := ⟨n - 1, by omega⟩
  induction m generalizing x y R offs with
  | zero => rfl
  | succ m ih =>
    obtain ⟨xs, x1, x2, -⟩ := downB_ok (by omega) x hx
    obtain ⟨ys, y1, y2, -⟩ := downB_ok (by omega) y hy
    have hsub : cgVecWith (cgAccF eig (m + 1)) xs ys = cgVecWith (cgAcc eig (m + 1)) xs ys :=
      cgVecWith_congr fun P hP Q hQ R offs => ih R offs (by omega)
        ⟨fun S hS => by rw [List.mem_singleton.1 hS]; exact x2.part P hP, by simp⟩
        ⟨fun S hS => by rw [List.mem_singleton.1 hS]; exact y2.part Q hQ, by simp⟩
    rw [show m + 1 + 1 = m + 2 from rfl, cgAccF, cgAcc]
    simp only [x1, y1, Option.bind_eq_bind, Option.bind_some, hsub,
      learnB_eq eig (by omega : 1 ≤ m + 1) (simAcc eig (by omega)) (hx.part x (by simp)).1 (hy.part y (by simp)).1]

theorem cgAccAnyF_eq (eig : Eig) {n : Nat} (hn : 1 ≤ n) {x y : VPart} (hx : SnVec.Ok n [x]) (hy : SnVec.Ok n [y]) (R : SnVec) (offs : SnType) :
    cgAccAnyF eig R offs x y = cgAccAny eig R offs x y := by
  have hg : IP.getn x.irrep.lambda = n := by rw [getn_eq]; exact (hx.part x (by simp)).1.sum
  unfold cgAccAnyF cgAccAny
  rw [hg]
  exact cgAccF_eq eig hn hx hy R offs

end Snob
