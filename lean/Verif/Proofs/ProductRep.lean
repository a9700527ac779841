import Mathlib.LinearAlgebra.Matrix.Kronecker
import Verif.Model.ProductRep
import Verif.Proofs.JM
import Verif.Proofs.IrrepSpec

/-! # The product of two irreps -/

namespace Snob

open IP Matrix Kronecker

theorem fst_fuse {a b : Nat} (i : Fin a) (j : Fin b) : fstIx (fuseIx i j) = i := by
  refine Fin.ext ?_
  change ((i : Nat) * b + j) / b = i
  have := j.2
  rw [Nat.add_comm, Nat.add_mul_div_right _ _ (by omega), Nat.div_eq_of_lt this, Nat.zero_add]

theorem snd_fuse {a b : Nat} (i : Fin a) (j : Fin b) : sndIx (fuseIx i j) = j := by
  refine Fin.ext ?_
  change ((i : Nat) * b + j) % b = j
  rw [Nat.add_comm, Nat.add_mul_mod_self_right, Nat.mod_eq_of_lt j.2]

theorem fuse_fst_snd {a b : Nat} (c : Fin (a * b)) : fuseIx (fstIx c) (sndIx c) = c :=
  Fin.ext (Nat.div_add_mod' c b)

/-- pairs of indices and fused indices -/
def fuseEquiv (a b : Nat) : Fin (a * b) ≃ Fin a × Fin b where
  toFun c := (fstIx c, sndIx c)
  invFun p := fuseIx p.1 p.2
  left_inv := fuse_fst_snd
  right_inv p := Prod.ext (fst_fuse _ _) (snd_fuse _ _)

/-- Kronecker product in terms of fused indices -/
noncomputable def kronFuse {a b : Nat} (M : Matrix (Fin a) (Fin a) ℝ) (N : Matrix (Fin b) (Fin b) ℝ) :
    Matrix (Fin (a * b)) (Fin (a * b)) ℝ := (M ⊗ₖ N).submatrix (fuseEquiv a b) (fuseEquiv a b)

theorem kronFuse_one {a b : Nat} : kronFuse (1 : Matrix (Fin a) (Fin a) ℝ) (1 : Matrix (Fin b) (Fin b) ℝ) = 1 := by
  unfold kronFuse
  rw [Matrix.one_kronecker_one, Matrix.submatrix_one_equiv]

theorem kronFuse_mul {a b : Nat} (M M' : Matrix (Fin a) (Fin a) ℝ) (N N' : Matrix (Fin b) (Fin b) ℝ) :
    kronFuse (M * M') (N * N') = kronFuse M N * kronFuse M' N' := by
  unfold kronFuse
  rw [Matrix.mul_kronecker_mul, Matrix.submatrix_mul_equiv]

theorem kronFuse_apply {a b : Nat} (M : Matrix (Fin a) (Fin a) ℝ) (N : Matrix (Fin b) (Fin b) ℝ) (x y : Fin (a * b)) :
    kronFuse M N x y = M (fstIx x) (fstIx y) * N (sndIx x) (sndIx y) := rfl

theorem kronFuse_fuse {a b : Nat} (M : Matrix (Fin a) (Fin a) ℝ) (N : Matrix (Fin b) (Fin b) ℝ) (x : Fin (a * b))
    (j : Fin a) (j' : Fin b) : kronFuse M N x ((fuseEquiv a b).symm (j, j')) = M (fstIx x) j * N (sndIx x) j' := by
  rw [kronFuse_apply]
  change M _ (fstIx (fuseIx j j')) * N _ (sndIx (fuseIx j j')) = _
  rw [fst_fuse, snd_fuse]

variable {n0 n2 : Nat}

/-- multiplication of the middle index -/
noncomputable def mulMid {d : Nat} (M : Matrix (Fin d) (Fin d) ℝ) (T : View3 n0 d n2) : View3 n0 d n2 :=
  fun a i b => ∑ j, M i j * T a j b

theorem mulMid_one {d : Nat} (T : View3 n0 d n2) : mulMid 1 T = T := by
  funext a i b
  simp [mulMid, Matrix.one_apply]

theorem mulMid_mul {d : Nat} (M N : Matrix (Fin d) (Fin d) ℝ) (T : View3 n0 d n2) :
    mulMid (M * N) T = mulMid M (mulMid N T) := by
  funext a i b
  simp only [mulMid, Matrix.mul_apply, Finset.sum_mul, Finset.mul_sum]
  rw [Finset.sum_comm]
  exact Finset.sum_congr rfl fun j _ => Finset.sum_congr rfl fun j' _ => mul_assoc _ _ _

theorem mem_midPairs {A B : Nat} (k : Fin A × Fin B) : k ∈ midPairs A B := by
  unfold midPairs
  rw [List.mem_flatMap]
  exact ⟨k.1, List.mem_finRange _, List.mem_map.2 ⟨k.2, List.mem_finRange _, rfl⟩⟩

theorem midPairs_nodup (A B : Nat) : (midPairs A B).Nodup := by
  unfold midPairs
  rw [List.nodup_flatMap]
  refine ⟨fun a _ => (List.nodup_finRange B).map fun b b' h => by cases h; rfl, ?_⟩
  refine (List.nodup_finRange A).imp fun {a a'} h => ?_
  intro x hx hx'
  rw [List.mem_map] at hx hx'
  obtain ⟨_, _, rfl⟩ := hx
  obtain ⟨_, _, e⟩ := hx'
  exact h (congrArg Prod.fst e).symm

section
variable {n : Nat} {p : List Nat} {hp : IsPartition n p} {R : IrrepObj}

theorem act_midPairs {d : Nat} (M : Matrix (Fin d) (Fin d) ℝ) (T : View3 n0 d n2) :
    (fun a (i : Fin d) b => act M (midPairs n0 n2) (fun i k => if h : i < d then T k.1 ⟨i, h⟩ k.2 else 0) i (a, b)) =
      mulMid M T := by
  funext a i b
  unfold act
  rw [dif_pos ⟨i.2, mem_midPairs _⟩]
  refine Finset.sum_congr rfl fun j _ => ?_
  simp

theorem Repr'.genMid (h : Repr' hp R) :
    Gen (M := Equiv.Perm (Fin n)) n (adj n) (fun σ => mulMid (n0 := n0) (n2 := n2) (h.rep σ))
      (fun tau T => R.midTau tau T) where
  one A := by rw [map_one, mulMid_one]
  mul σ τ A := by rw [map_mul, mulMid_mul]
  gen k A hk := by
    have g := (h.gen (midPairs n0 n2) (midPairs_nodup _ _)).gen k
      (fun i k => if h : i < R.d then A k.1 ⟨i, h⟩ k.2 else 0) hk
    unfold IrrepObj.midTau
    rw [g]
    simp only [Option.bind_eq_bind, Option.bind_some]
    rw [act_midPairs]

end

/-! ## Abstract form of the loops over generators -/

section
variable {X : Type} {n : Nat} {a : Equiv.Perm (Fin n) → X → X} {ap : Int → X → Option X}

theorem Gen.cycleUp (g : Gen n (adj n) a ap) (i j : Fin n) (hij : i ≤ j) (x : X) :
    forDown (((j : Nat) : Int) + 1 - 1) ((i : Nat) + 1) x ap = some (a (cyc i j) x) := by
  have hi := i.2
  have hj := j.2
  have hij' : (i : Nat) ≤ j := hij
  rw [g.down i (j - i) (by omega) rfl (by omega), run_adj (by omega)]
  congr 3
  exact Fin.ext (by simp only; omega)

theorem Gen.cycleDown (g : Gen n (adj n) a ap) (i j : Fin n) (hij : i ≤ j) (x : X) :
    forUp (((i : Nat) : Int) + 1) ((j : Nat) + 1) x ap = some (a (cyc i j)⁻¹ x) := by
  have hi := i.2
  have hj := j.2
  have hij' : (i : Nat) ≤ j := hij
  rw [g.up i (j - i) (by omega) rfl (by omega), rrun_adj, run_adj (by omega)]
  congr 4
  exact Fin.ext (by simp only; omega)

/-- both branches of the action of a contiguous cycle -/
def cyc2 {n : Nat} (i j : Fin n) : Equiv.Perm (Fin n) := if i < j then cyc i j else (cyc j i)⁻¹

theorem Gen.cycle (g : Gen n (adj n) a ap) (i j : Fin n) (x : X) :
    (if (((i : Nat) : Int) + 1) < ((j : Nat) : Int) + 1 then forDown (((j : Nat) : Int) + 1 - 1) ((i : Nat) + 1) x ap
      else forUp (((j : Nat) : Int) + 1) ((i : Nat) + 1) x ap) = some (a (cyc2 i j) x) := by
  unfold cyc2
  by_cases hij : i < j
  · have : (i : Nat) < j := hij
    rw [if_pos (by omega), if_pos hij, g.cycleUp i j hij.le]
  · have : ¬ (i : Nat) < j := hij
    rw [if_neg (by omega), if_neg hij, g.cycleDown j i (not_lt.1 hij)]

theorem Gen.swap (g : Gen n (adj n) a ap) (i j : Fin n) (x : X) :
    (do
      let x ← forDown (max (((i : Nat) : Int) + 1) ((j : Nat) + 1) - 1) (min (((i : Nat) : Int) + 1) ((j : Nat) + 1)) x ap
      forUp (min (((i : Nat) : Int) + 1) ((j : Nat) + 1) + 1) (max (((i : Nat) : Int) + 1) ((j : Nat) + 1)) x ap) =
      some (a (Equiv.swap i j) x) := by
  have key : ∀ i j : Fin n, i < j → (do
      let x ← forDown (((j : Nat) : Int) + 1 - 1) ((i : Nat) + 1) x ap
      forUp (((i : Nat) : Int) + 1 + 1) ((j : Nat) + 1) x ap) = some (a (Equiv.swap i j) x) := by
    intro i j hij
    have hij' : (i : Nat) < j := hij
    have hj := j.2
    rw [g.cycleUp i j hij.le]
    simp only [Option.bind_eq_bind, Option.bind_some]
    have h2 := g.cycleDown ⟨i + 1, by omega⟩ j (by rw [Fin.le_def]; simp only; omega) (a (cyc i j) x)
    simp only [Nat.cast_add, Nat.cast_one] at h2
    rw [h2, swap_eq_cyc i j hij, g.mul]
  rcases lt_trichotomy i j with hij | rfl | hij
  · have : (i : Nat) < j := hij
    have e1 : min (((i : Nat) : Int) + 1) ((j : Nat) + 1) = (i : Nat) + 1 := by omega
    have e2 : max (((i : Nat) : Int) + 1) ((j : Nat) + 1) = (j : Nat) + 1 := by omega
    rw [e1, e2]
    exact key i j hij
  · rw [max_self, min_self, forDown_empty (by omega), Equiv.swap_self]
    simp only [Option.bind_eq_bind, Option.bind_some]
    rw [forUp_empty (by omega)]
    exact congrArg some (g.one x).symm
  · have : (j : Nat) < i := hij
    have e1 : min (((i : Nat) : Int) + 1) ((j : Nat) + 1) = (j : Nat) + 1 := by omega
    have e2 : max (((i : Nat) : Int) + 1) ((j : Nat) + 1) = (i : Nat) + 1 := by omega
    rw [e1, e2, Equiv.swap_comm]
    exact key j i hij

theorem Gen.sigma (g : Gen n (adj n) a ap) (σ : Equiv.Perm (Fin n)) (x : X) :
    (if (enc σ).length = n then (do
      let s ← IrrepObj.shifts n (enc σ)
      forUp 2 ((n : Int) + 1) x fun i x => do
        let b ← rd s (i - 1)
        forDown (i - 1) b x fun a x => ap a x) else none) = some (a σ x) := by
  rw [if_pos (by simp), shifts_eq]
  have := sigmaLoop (s := adj n) (a := a) g.one g.mul
    (cy := fun b i A => forDown (i - 1) b A fun a A => ap a A)
    (fun t m x htm => g.down t m htm rfl (by ring) x) σ x
  rw [cox_adj_self] at this
  exact this

end

/-! ## The two factors -/

section
variable {d0 d1 : Nat}

theorem mulMid_23 (M : Matrix (Fin d0) (Fin d0) ℝ) (A : View3 n0 (d0 * d1) n2) :
    unsplit1 (unfuse23 (mulMid M (fuse23 (split1 A)))) = mulMid (kronFuse M (1 : Matrix (Fin d1) (Fin d1) ℝ)) A := by
  funext a x b
  simp only [unsplit1, unfuse23, mulMid, fuse23, split1, fst_fuse, snd_fuse]
  rw [← (fuseEquiv d0 d1).symm.sum_comp, Fintype.sum_prod_type]
  refine Finset.sum_congr rfl fun j _ => ?_
  rw [Finset.sum_eq_single (sndIx x)]
  · rw [kronFuse_fuse, Matrix.one_apply_eq, mul_one]
    rfl
  · intro j' _ hne
    rw [kronFuse_fuse, Matrix.one_apply_ne (Ne.symm hne), mul_zero, zero_mul]
  · simp

theorem mulMid_01 (M : Matrix (Fin d1) (Fin d1) ℝ) (A : View3 n0 (d0 * d1) n2) :
    unsplit1 (unfuse01 (mulMid M (fuse01 (split1 A)))) = mulMid (kronFuse (1 : Matrix (Fin d0) (Fin d0) ℝ) M) A := by
  funext a x b
  simp only [unsplit1, unfuse01, mulMid, fuse01, split1, fst_fuse, snd_fuse]
  rw [← (fuseEquiv d0 d1).symm.sum_comp, Fintype.sum_prod_type, Finset.sum_eq_single (fstIx x)]
  · refine Finset.sum_congr rfl fun j _ => ?_
    rw [kronFuse_fuse, Matrix.one_apply_eq, one_mul]
    rfl
  · intro j' _ hne
    refine Finset.sum_eq_zero fun j _ => ?_
    rw [kronFuse_fuse, Matrix.one_apply_ne (Ne.symm hne), zero_mul, zero_mul]
  · simp

end

section
variable {n : Nat} {p q : List Nat} {hp : IsPartition n p} {hq : IsPartition n q} {P : ProductRep}

theorem cyc_midCycle {R : IrrepObj} {p : List Nat} {hp : IsPartition n p} (h : Repr' hp R) (i j : Fin n)
    (T : View3 n0 R.d n2) :
    R.midCycle ((i : Nat) + 1) ((j : Nat) + 1) T = some (mulMid (h.rep (cyc2 i j)) T) :=
  h.genMid.cycle i j T

/-- the matrix of the product representation -/
noncomputable def prodMat (h0 : Repr' hp P.rho0) (h1 : Repr' hq P.rho1) (σ : Equiv.Perm (Fin n)) :
    Matrix (Fin P.d) (Fin P.d) ℝ := kronFuse (h0.rep σ) (h1.rep σ)

theorem prodMat_one (h0 : Repr' hp P.rho0) (h1 : Repr' hq P.rho1) : prodMat h0 h1 1 = 1 := by
  unfold prodMat
  rw [map_one, map_one]
  exact kronFuse_one

theorem prodMat_mul (h0 : Repr' hp P.rho0) (h1 : Repr' hq P.rho1) (σ τ : Equiv.Perm (Fin n)) :
    prodMat h0 h1 (σ * τ) = prodMat h0 h1 σ * prodMat h0 h1 τ := by
  unfold prodMat
  rw [map_mul, map_mul]
  exact kronFuse_mul _ _ _ _

theorem mulMid_both (h0 : Repr' hp P.rho0) (h1 : Repr' hq P.rho1) (σ : Equiv.Perm (Fin n)) (A : View3 n0 P.d n2) :
    unsplit1 (unfuse01 (mulMid (h1.rep σ) (fuse01 (split1 (d0 := P.rho0.d) (d1 := P.rho1.d)
      (unsplit1 (unfuse23 (mulMid (h0.rep σ) (fuse23 (split1 (d0 := P.rho0.d) (d1 := P.rho1.d) A))))))))) =
      mulMid (prodMat h0 h1 σ) A := by
  rw [mulMid_23, mulMid_01]
  refine (mulMid_mul _ _ _).symm.trans ?_
  rw [← kronFuse_mul, one_mul, mul_one]
  rfl

theorem genProd (h0 : Repr' hp P.rho0) (h1 : Repr' hq P.rho1) :
    Gen (M := Equiv.Perm (Fin n)) n (adj n) (fun σ => mulMid (n0 := n0) (n2 := n2) (prodMat h0 h1 σ))
      (fun tau T => P.applyTau tau T) where
  one A := by rw [prodMat_one, mulMid_one]
  mul σ τ A := by rw [prodMat_mul, mulMid_mul]
  gen k A hk := by
    unfold ProductRep.applyTau
    have e0 := (h0.genMid (n0 := n0) (n2 := P.rho1.d * n2)).gen k (fuse23 (split1 (d0 := P.rho0.d) (d1 := P.rho1.d) A)) hk
    rw [e0]
    simp only [Option.bind_eq_bind, Option.bind_some]
    have e1 := (h1.genMid (n0 := n0 * P.rho0.d) (n2 := n2)).gen k (fuse01 (split1 (d0 := P.rho0.d) (d1 := P.rho1.d)
      (unsplit1 (unfuse23 (mulMid (h0.rep (adj n k)) (fuse23 (split1 (d0 := P.rho0.d) (d1 := P.rho1.d) A))))))) hk
    rw [e1]
    simp only [Option.bind_some]
    rw [mulMid_both]

theorem prodCycle (h0 : Repr' hp P.rho0) (h1 : Repr' hq P.rho1) (i j : Fin n) (A : View3 n0 P.d n2) :
    P.applyCycle ((i : Nat) + 1) ((j : Nat) + 1) A = some (mulMid (prodMat h0 h1 (cyc2 i j)) A) := by
  unfold ProductRep.applyCycle
  rw [cyc_midCycle h0]
  simp only [Option.bind_eq_bind, Option.bind_some]
  rw [cyc_midCycle h1]
  simp only [Option.bind_some]
  rw [mulMid_both]

theorem prodJM (h0 : Repr' hp P.rho0) (h1 : Repr' hq P.rho1) (k : Nat) (hk : k < n) :
    P.jucysMurphy ((k : Int) + 1) =
      some fun x y => ∑ i ∈ Finset.range k, prodMat h0 h1 (tr n i k) x y := by
  have g := genProd (n0 := 1) (n2 := P.d) h0 h1
  set I : View3 1 P.d P.d := fun _ i j => if i = j then 1 else 0 with hI
  have hact : ∀ σ, mulMid (prodMat h0 h1 σ) I = fun _ x y => prodMat h0 h1 σ x y := by
    intro σ
    funext a x y
    simp [mulMid, hI]
  have key : ∀ (m : Nat) (hm : m ≤ k) (A0 : View3 1 P.d P.d),
      iterDown (fun i (st : View3 1 P.d P.d × View3 1 P.d P.d) => (do
          let A ← P.applyTau i st.2
          let B ← P.applyCycle ((k : Int) + 1) (i + 1) A
          some (fun a x y => st.1 a x y + B a x y, A) :
            Option (View3 1 P.d P.d × View3 1 P.d P.d))) m m
          (A0, mulMid (prodMat h0 h1 (run (adj n) m (k - m))) I) =
          some (fun a x y => A0 a x y + ∑ i ∈ Finset.range m, prodMat h0 h1 (tr n i k) x y,
            mulMid (prodMat h0 h1 (run (adj n) 0 k)) I) := by
    intro m
    induction m with
    | zero =>
      intro hm A0
      simp [iterDown]
    | succ m ih =>
      intro hm A0
      have e0 : ((m + 1 : Nat) : Int) = (m : Int) + 1 := by push_cast; ring
      have hgen := g.gen m (mulMid (prodMat h0 h1 (run (adj n) (m + 1) (k - (m + 1)))) I) (by omega)
      have hrun : run (adj n) m (k - m) = adj n m * run (adj n) (m + 1) (k - (m + 1)) := by
        have : k - m = (k - (m + 1)) + 1 := by omega
        rw [this, run]
      rw [← g.mul, ← hrun] at hgen
      have hcyc := prodCycle h0 h1 ⟨k, hk⟩ ⟨m + 1, by omega⟩ (mulMid (prodMat h0 h1 (run (adj n) m (k - m))) I)
      have hc2 : cyc2 (⟨k, hk⟩ : Fin n) ⟨m + 1, by omega⟩ = (cyc (⟨m + 1, by omega⟩ : Fin n) ⟨k, hk⟩)⁻¹ := by
        unfold cyc2
        rw [if_neg (by rw [Fin.lt_def]; simp only; omega)]
      have htr : tr n m k = (cyc (⟨m + 1, by omega⟩ : Fin n) ⟨k, by omega⟩)⁻¹ * run (adj n) m (k - m) := by
        rw [tr_of (by omega) (by omega), swap_eq_cyc _ _ (by rw [Fin.lt_def]; simp only; omega), run_adj (by omega)]
        congr 2
        exact Fin.ext (by simp only; omega)
      rw [hc2, ← mulMid_mul, ← prodMat_mul, ← htr, hact (tr n m k)] at hcyc
      simp only [Nat.cast_add, Nat.cast_one] at hcyc
      rw [iterDown]
      simp only [Option.bind_eq_bind]
      rw [e0, hgen, Option.bind_some, hcyc, Option.bind_some, Option.bind_some]
      have e1 : ((m : Int) + 1 - 1) = (m : Int) := by ring
      rw [e1]
      have := ih (by omega) (fun a x y => A0 a x y + prodMat h0 h1 (tr n m k) x y)
      simp only [Option.bind_eq_bind] at this
      rw [this]
      congr 2
      funext a x y
      rw [Finset.sum_range_succ]
      ring
  unfold ProductRep.jucysMurphy forDown
  have e : ((k : Int) + 1 - 1) = k := by ring
  have e2 : ((k : Int) + 1 - 1 - 1 + 1).toNat = k := by omega
  have e3 : run (adj n) k (k - k) = 1 := by rw [Nat.sub_self]; rfl
  have hK := key k (Nat.le_refl _) (fun _ _ _ => 0)
  rw [e3, prodMat_one, mulMid_one] at hK
  rw [e2, e, hK]
  simp

end

end Snob
