import Verif.Proofs.CGStep
import Verif.Proofs.TrivSign

/-! # Products with an irrep of dimension one -/

namespace Snob

open Matrix IP
open scoped Nat

section kron
variable {n : Nat} {a b : List Nat}

theorem kron_sq_sum (ha : IsPartition n a) (hb : IsPartition n b) (h1 : ∀ σ, chi ha σ * chi ha σ = 1) :
    ∑ x : Pt n, kronN n a b x.1 * kronN n a b x.1 = 1 := by
  have hf : (n ! : ℝ) ≠ 0 := by exact_mod_cast (Nat.factorial_pos n).ne'
  have : ((∑ x : Pt n, kronN n a b x.1 * kronN n a b x.1 : Nat) : ℝ) = 1 := by
    push_cast
    have e : ∀ x : Pt n, (kronN n a b x.1 : ℝ) * kronN n a b x.1 = (∑ σ, chi ha σ * chi hb σ * (kronN n a b x.1 * chi x.2 σ)) / n ! := by
      intro x
      have hK := kronN_eq ha hb x.2
      unfold kron at hK
      generalize (kronN n a b x.1 : ℝ) = K at hK ⊢
      rw [Finset.sum_congr rfl fun σ _ => show chi ha σ * chi hb σ * (K * chi x.2 σ) = K * (chi ha σ * chi hb σ * chi x.2 σ) by ring,
        ← Finset.mul_sum, mul_div_assoc, ← hK]
    rw [Finset.sum_congr rfl fun x _ => e x, ← Finset.sum_div, Finset.sum_comm]
    simp only [← Finset.mul_sum]
    have e2 : ∀ σ, chi ha σ * chi hb σ * ∑ x : Pt n, (kronN n a b x.1 : ℝ) * chi x.2 σ = chi hb σ * chi hb σ := by
      intro σ
      rw [sum_kron_chi ha hb σ]
      calc chi ha σ * chi hb σ * (chi ha σ * chi hb σ) = (chi ha σ * chi ha σ) * (chi hb σ * chi hb σ) := by ring
        _ = _ := by rw [h1, one_mul]
    rw [Finset.sum_congr rfl fun σ _ => e2 σ, chi_orthogonality, if_pos rfl, div_self hf]
  exact_mod_cast this

theorem kron_one_exists (ha : IsPartition n a) (hb : IsPartition n b) (h1 : ∀ σ, chi ha σ * chi ha σ = 1) :
    ∃ x, IsPartition n x ∧ kronN n a b x = 1 := by
  have h := kron_sq_sum ha hb h1
  have h0 : ∃ x ∈ (Finset.univ : Finset (Pt n)), kronN n a b x.1 * kronN n a b x.1 ≠ 0 :=
    Finset.exists_ne_zero_of_sum_ne_zero (by rw [h]; omega)
  obtain ⟨x, -, hx⟩ := h0
  refine ⟨x.1, x.2, ?_⟩
  have hle : kronN n a b x.1 * kronN n a b x.1 ≤ 1 := by
    rw [← h]
    exact Finset.single_le_sum (f := fun x : Pt n => kronN n a b x.1 * kronN n a b x.1) (fun _ _ => Nat.zero_le _) (Finset.mem_univ x)
  have h2 : kronN n a b x.1 ≠ 0 := by rintro e; simp [e] at hx
  have h3 : 1 ≤ kronN n a b x.1 := by omega
  nlinarith

theorem kron_one_unique (ha : IsPartition n a) (hb : IsPartition n b) (h1 : ∀ σ, chi ha σ * chi ha σ = 1) {x : List Nat} (hx : IsPartition n x)
    (hk : kronN n a b x = 1) {y : List Nat} (hy : IsPartition n y) (hne : x ≠ y) : kronN n a b y = 0 := by
  have h := kron_sq_sum ha hb h1
  have h2 := Finset.add_le_sum (f := fun x : Pt n => kronN n a b x.1 * kronN n a b x.1) (s := Finset.univ) (fun _ _ => Nat.zero_le _)
    (Finset.mem_univ (⟨x, hx⟩ : Pt n)) (Finset.mem_univ (⟨y, hy⟩ : Pt n)) (fun e => hne (congrArg Subtype.val e))
  rw [h] at h2
  simp only [hk] at h2
  by_contra h0
  have h3 : 1 ≤ kronN n a b y := by omega
  nlinarith

/-- the multiplicities below -/
theorem kmul_one {n : Nat} (hn : 1 ≤ n) {a b lam mu : List Nat} (ha : IsPartition (n + 1) a) (hb : IsPartition (n + 1) b)
    (h1 : ∀ σ, chi ha σ * chi ha σ = 1) (hl : IsPartition (n + 1) lam) (hk : kronN (n + 1) a b lam = 1) (hmu : mu ∈ subs lam) :
    kmul n a b mu = 1 := by
  rw [kmul_eq hn ha hb (sub_part hl mu hmu), Finset.sum_eq_single (⟨lam, hl⟩ : Pt (n + 1))]
  · rw [if_pos hmu, hk]
  · intro x _ hx
    rw [kron_one_unique ha hb h1 hl hk x.2 fun e => hx (Subtype.ext e.symm)]
    simp
  · simp

theorem kmul_one_right {n : Nat} (hn : 1 ≤ n) {a b lam mu : List Nat} (ha : IsPartition (n + 1) a) (hb : IsPartition (n + 1) b)
    (h1 : ∀ σ, chi hb σ * chi hb σ = 1) (hl : IsPartition (n + 1) lam) (hk : kronN (n + 1) a b lam = 1) (hmu : mu ∈ subs lam) :
    kmul n a b mu = 1 := by
  rw [kronN_swap12 _ a b] at hk
  rw [kmul_eq hn ha hb (sub_part hl mu hmu), Finset.sum_eq_single (⟨lam, hl⟩ : Pt (n + 1))]
  · rw [if_pos hmu, kronN_swap12 _ a b, hk]
  · intro x _ hx
    rw [kronN_swap12 _ a b, kron_one_unique hb ha h1 hl hk x.2 fun e => hx (Subtype.ext e.symm)]
    simp
  · simp

end kron

/-- the eigenvector returned for a number -/
noncomputable def usg (eig : Eig) (c : ℝ) : ℝ := (eig 1 fun _ _ => c).1 0 0

theorem usg_sq {eig : Eig} (he : EigOk eig) (c : ℝ) : usg eig c * usg eig c = 1 := by
  have := congrFun (congrFun (he 1 (fun _ _ => c) (by ext; rfl)).1 0) 0
  rw [Matrix.mul_apply, Matrix.one_apply_eq, Fin.sum_univ_one] at this
  exact this

theorem usg_ne {eig : Eig} (he : EigOk eig) (c : ℝ) : usg eig c ≠ 0 := by
  intro h
  have := usg_sq he c
  rw [h] at this
  norm_num at this

section
variable {n : Nat} {a b : List Nat} {Φ : Coef} {eig : Eig}

theorem eig_cast {k : Nat} (hk : k = 1) {M : Matrix (Fin k) (Fin k) ℝ} {c : ℝ} (hM : ∀ i j, M i j = c) (i j : Fin k) : (eig k M).1 i j = usg eig c := by
  subst hk
  have : M = fun _ _ => c := by ext i j; exact hM i j
  rw [this, Subsingleton.elim i 0, Subsingleton.elim j 0]
  rfl

theorem Sm_one (h : Inv n Φ) (he : EigOk eig) (hn : 1 ≤ n) (ha : IsPartition (n + 1) a) (hb : IsPartition (n + 1) b) {lam mu : List Nat}
    (hl : IsPartition (n + 1) lam) (hmu : mu ∈ subs lam) (hK : kmul n a b mu = 1) (k : Fin (kmul n a b mu)) (c : Fin (kronN (n + 1) a b lam)) :
    Sm eig n Φ a b lam mu k c = usg eig (topc lam mu) := by
  have hm := sub_part hl mu hmu
  obtain ⟨j, hj, -, e⟩ := Sm_eq h he hn ha hb hl hmu c
  rw [e]
  rw [mem_Jm h he hn ha hb hm] at hj
  have hss : ∀ i j : Fin (kmul n a b mu), i = j := fun i j => Fin.ext (by omega)
  refine eig_cast hK (fun i l => ?_) k j
  have h2 := congrFun (congrFun (he _ _ (Mm_symm (Φ := Φ) hn ha hb mu)).2 i) i
  have h1 := congrFun (congrFun (he _ _ (Mm_symm (Φ := Φ) hn ha hb mu)).1 i) i
  rw [Matrix.mul_apply, Finset.sum_eq_single i (fun x _ hx => absurd (hss x i) hx) (by simp)] at h1 h2
  rw [Matrix.mul_diagonal] at h2
  rw [Matrix.one_apply_eq, Matrix.transpose_apply] at h1
  have h0 : (eig _ (Mm n Φ a b mu)).1 i i ≠ 0 := by
    intro h0; rw [h0] at h1; norm_num at h1
  rw [hss l i, ← hj, hss j i]
  refine mul_right_cancel₀ h0 ?_
  rw [h2, mul_comm]
  rfl

theorem psi_one {mu : List Nat} (hK : kmul n a b mu = 1) : ∃ e ∈ sprs a b, kronN n e.1 e.2 mu = 1 ∧
    (∀ t i j, psi n Φ a b mu t 0 i j = embP a b e (Φ e.1 e.2 mu t 0) i j) := by
  have h0 : 0 < tot n (sprs a b) mu := by rw [show tot n (sprs a b) mu = kmul n a b mu from rfl, hK]; omega
  obtain ⟨h1, h2⟩ := loc_mem h0
  have h3 : kronN n (loc n (sprs a b) mu 0).1.1 (loc n (sprs a b) mu 0).1.2 mu ≤ 1 := by
    rw [← hK]
    exact List.single_le_sum (by simp) _ (List.mem_map.2 ⟨_, h1, rfl⟩)
  have h4 : (loc n (sprs a b) mu 0).2 = 0 := by omega
  refine ⟨_, h1, by omega, fun t i j => ?_⟩
  unfold psi
  rw [h4]

theorem nextB_one (h : Inv n Φ) (he : EigOk eig) (hn : 1 ≤ n) (ha : IsPartition (n + 1) a) (hb : IsPartition (n + 1) b) {lam mu : List Nat}
    (hl : IsPartition (n + 1) lam) (hmu : mu ∈ subs lam) (hk : kronN (n + 1) a b lam = 1) (hK : kmul n a b mu = 1)
    (hG : Gm eig n Φ a b lam mu = 1) (t i j : Nat) : nextB eig n Φ a b lam mu t 0 i j = usg eig (topc lam mu) * psi n Φ a b mu t 0 i j := by
  have hc : 0 < kronN (n + 1) a b lam := by omega
  rw [nextB_lt hc, Finset.sum_eq_single (⟨0, by omega⟩ : Fin (kmul n a b mu)) (fun x _ hx => absurd (Fin.ext (by have := x.2; simp only; omega)) hx) (by simp)]
  unfold Fm
  rw [hG, Matrix.mul_one, Sm_one h he hn ha hb hl hmu hK, mul_comm]

end

end Snob
