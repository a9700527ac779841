import Verif.Proofs.CGTriv
import Verif.Proofs.CGEqui

/-! # Products with the sign -/

namespace Snob

open Matrix IP
open scoped Nat

/-! ## Matrices that turn one irrep into another times the sign -/

section tw
variable {n : Nat} {lam b : List Nat} (hl : IsPartition n lam) (hb : IsPartition n b) (W : Wd n lam → Wd n b → ℝ)

def Twist : Prop := ∀ (σ : Equiv.Perm (Fin n)) u v, ((Equiv.Perm.sign σ : Int) : ℝ) * ∑ v', rho hb σ v' v * W u v' = ∑ u', rho hl σ u u' * W u' v

variable {hl hb W}

theorem Wd.ext_cont {p : List Nat} (hp : IsPartition n p) {u v : Wd n p} (h : ∀ m, 1 ≤ m → m ≤ n → u.cont m = v.cont m) : u = v :=
  Subtype.ext (contW_injective (u.lat hp) (v.lat hp) ((u.length hp).trans (v.length hp).symm) fun m h1 h2 => h m h1 (by rw [u.length hp] at h2; exact h2))

theorem sign_tr {i k : Nat} (hi : i < k) (hk : k < n) : Equiv.Perm.sign (tr n i k) = -1 := by
  rw [tr_of (by omega) hk]
  exact Equiv.Perm.sign_swap (by intro h; have := congrArg Fin.val h; simp at this; omega)

theorem Twist.wt (h : Twist hl hb W) {u : Wd n lam} {v : Wd n b} (hW : W u v ≠ 0) {m : Nat} (h1 : 1 ≤ m) (h2 : m ≤ n) : v.cont m = - u.cont m := by
  obtain ⟨k, rfl⟩ : ∃ k, m = k + 1 := ⟨m - 1, by omega⟩
  have hs : ∑ i ∈ Finset.range k, (((Equiv.Perm.sign (tr n i k) : Int) : ℝ) * ∑ v', rho hb (tr n i k) v' v * W u v') =
      ∑ i ∈ Finset.range k, ∑ u', rho hl (tr n i k) u u' * W u' v := Finset.sum_congr rfl fun i _ => h _ u v
  have e1 : ∀ i ∈ Finset.range k, (((Equiv.Perm.sign (tr n i k) : Int) : ℝ) * ∑ v', rho hb (tr n i k) v' v * W u v') = - ∑ v', rho hb (tr n i k) v' v * W u v' := by
    intro i hi
    rw [sign_tr (Finset.mem_range.1 hi) (by omega)]
    push_cast; ring
  rw [Finset.sum_congr rfl e1, Finset.sum_neg_distrib, Finset.sum_comm, Finset.sum_comm (s := Finset.range k)] at hs
  have e2 : ∀ v', ∑ i ∈ Finset.range k, rho hb (tr n i k) v' v * W u v' = if v' = v then (v.cont (k + 1) : ℝ) * W u v else 0 := by
    intro v'
    rw [← Finset.sum_mul]
    have := congrFun (congrFun (jm_eq hb k (by omega)) v') v
    unfold jm at this
    rw [Matrix.sum_apply] at this
    rw [this, Matrix.diagonal_apply]
    split_ifs with hv
    · rw [hv]
    · rw [zero_mul]
  have e3 : ∀ u', ∑ i ∈ Finset.range k, rho hl (tr n i k) u u' * W u' v = if u = u' then (u.cont (k + 1) : ℝ) * W u v else 0 := by
    intro u'
    rw [← Finset.sum_mul]
    have := congrFun (congrFun (jm_eq hl k (by omega)) u) u'
    unfold jm at this
    rw [Matrix.sum_apply] at this
    rw [this, Matrix.diagonal_apply]
    split_ifs with hv
    · rw [hv]
    · rw [zero_mul]
  simp only [e2, e3, Finset.sum_ite_eq, Finset.sum_ite_eq', Finset.mem_univ, if_true] at hs
  have : ((v.cont (k + 1) : Int) : ℝ) = - (u.cont (k + 1) : Int) := mul_right_cancel₀ hW (by linarith)
  exact_mod_cast this

theorem Twist.step (h : Twist hl hb W) {u u' : Wd n lam} {v : Wd n b} (hW : W u v ≠ 0) {k : Nat} (hk : k + 1 < n)
    (hu : u'.cont = sw (k + 1) u.cont) (hd : offc (u.cont (k + 2) - u.cont (k + 1)) ≠ 0) : ∃ v', W u' v' = - W u v := by
  have c1 := h.wt hW (m := k + 1) (by omega) (by omega)
  have c2 := h.wt hW (m := k + 2) (by omega) (by omega)
  obtain ⟨v', hv'⟩ := v.exists_sw hb (k := k + 1) (by omega) (by omega)
    (by rw [c2, c1, show -u.cont (k + 2) - -u.cont (k + 1) = -(u.cont (k + 2) - u.cont (k + 1)) by ring, offc_neg]; exact hd)
  refine ⟨v', ?_⟩
  have e := h (adj n k) u' v
  have hs : Equiv.Perm.sign (adj n k) = -1 := by rw [← tr_adj]; exact sign_tr (by omega) hk
  rw [hs, rho_adj hl hk, rho_adj hb hk] at e
  have u1 : u'.cont (k + 1) = u.cont (k + 2) := by rw [hu, sw_lo]
  have u2 : u'.cont (k + 2) = u.cont (k + 1) := by rw [hu, sw_hi]
  have v1 : v'.cont (k + 1) = v.cont (k + 2) := by rw [hv', sw_lo]
  have v2 : v'.cont (k + 2) = v.cont (k + 1) := by rw [hv', sw_hi]
  have hne : u.cont (k + 2) ≠ u.cont (k + 1) := u.cont_ne hl (by omega) (by omega)
  rw [Finset.sum_eq_single v', Finset.sum_eq_single u] at e
  · have y1 : yorM n lam (k + 1) u' u = offc (u.cont (k + 2) - u.cont (k + 1)) := by
      unfold yorM
      rw [if_neg, if_pos (by rw [hu, sw_sw]), u2, u1, ← offc_neg, neg_sub]
      rintro rfl; exact hne u1.symm
    have y2 : yorM n b (k + 1) v' v = offc (u.cont (k + 2) - u.cont (k + 1)) := by
      unfold yorM
      rw [if_neg, if_pos (by rw [hv', sw_sw]), v2, v1, c1, c2]
      · congr 1; ring
      · rintro rfl; omega
    rw [y1, y2] at e
    push_cast at e
    refine mul_left_cancel₀ hd ?_
    linarith
  · intro u'' _ hne'
    rw [mul_eq_zero]; right
    by_contra hW'
    refine hne' (Wd.ext_cont hl fun m h1 h2 => ?_)
    have a1 := h.wt hW' h1 h2
    have a2 := h.wt hW h1 h2
    omega
  · simp
  · intro v'' _ hne'
    rw [mul_eq_zero]; right
    by_contra hW'
    refine hne' (Wd.ext_cont hb fun m h1 h2 => ?_)
    have a1 := h.wt hW' h1 h2
    rw [a1, hu, hv']
    by_cases m1 : m = k + 1
    · subst m1; rw [sw_lo, sw_lo, c2]
    · by_cases m2 : m = k + 2
      · subst m2; rw [sw_hi, sw_hi, c1]
      · rw [sw_ne _ m1 m2, sw_ne _ m1 m2, h.wt hW h1 h2]
  · simp

/-- the column of a row is determined -/
theorem Twist.unique (h : Twist hl hb W) {u : Wd n lam} {v v' : Wd n b} (h1 : W u v ≠ 0) (h2 : W u v' ≠ 0) : v = v' :=
  Wd.ext_cont hb fun m m1 m2 => by rw [h.wt h1 m1 m2, h.wt h2 m1 m2]

end tw

/-! ## The coefficients -/

theorem dimOf_col {n : Nat} (hn : 1 ≤ n) : dimOf (List.replicate n 1) = 1 := by
  have h1 := dimOf_pos hn (isPartition_col n)
  rw [dimOf_eq hn (isPartition_col n)] at h1 ⊢
  have := words_length_of_subsingleton (isPartition_col n) (wd_subsingleton_of_cont (isPartition_col n) _ fun u m h1 h2 => cont_col u h1 h2)
  unfold dimW at *
  omega

theorem evalN_col {n : Nat} (hn : 1 ≤ n) (σ : Equiv.Perm (Fin n)) : evalN (List.replicate n 1) (enc σ) 0 0 = ((Equiv.Perm.sign σ : Int) : ℝ) := by
  have h : (irrOf (List.replicate n 1)).d = 1 := dimOf_col hn
  rw [evalN_rho hn (isPartition_col n) σ ⟨0, by rw [h]; omega⟩ ⟨0, by rw [h]; omega⟩, rho_col]

theorem chi_col_sq {n : Nat} (hn : 1 ≤ n) (σ : Equiv.Perm (Fin n)) : chi (isPartition_col n) σ * chi (isPartition_col n) σ = 1 := by
  have : chi (isPartition_col n) σ = ((Equiv.Perm.sign σ : Int) : ℝ) := by
    show ∑ u, rho (isPartition_col n) σ u u = _
    have hc : Fintype.card (Wd n (List.replicate n 1)) = 1 := by
      have := Fintype.card_congr (eqvR hn (isPartition_col n))
      rw [Fintype.card_fin, show (irrOf (List.replicate n 1)).d = 1 from dimOf_col hn] at this
      exact this.symm
    rw [Finset.sum_congr rfl fun u _ => rho_col σ u u, Finset.sum_const, Finset.card_univ, hc, one_smul]
  rw [this]
  rcases Int.units_eq_one_or (Equiv.Perm.sign σ) with h | h <;> rw [h] <;> simp

theorem mem_subs_col {n : Nat} {e : List Nat} (he : e ∈ subs (List.replicate (n + 1) 1)) : e = List.replicate n 1 := by
  obtain ⟨h1, r, hb⟩ := (mem_subs (isPartition_col (n + 1)) e).1 he
  have h2 : ∀ x ∈ e, x = 1 := by
    intro x hx
    obtain ⟨i, hi, rfl⟩ := List.getElem_of_mem hx
    have h3 := hb i
    have h4 := h1.pos _ hx
    rw [row_replicate] at h3
    have h5 : row e i = e[i] := by unfold row; rw [List.getElem?_eq_getElem hi]; rfl
    split_ifs at h3 <;> omega
  have h3 : e = List.replicate e.length 1 := List.eq_replicate_iff.2 ⟨rfl, h2⟩
  have h4 := h1.sum
  rw [h3] at h4 ⊢
  simp at h4
  rw [h4]

section
variable {eig : Eig}

/-- one step -/
theorem phi_col_step (he : EigOk eig) {n : Nat} (hn : 1 ≤ n) {b lam : List Nat} (hb : IsPartition (n + 1) b) (hl : IsPartition (n + 1) lam)
    (hk : kronN (n + 1) (List.replicate (n + 1) 1) b lam = 1) {mu : List Nat} (hmu : mu ∈ subs lam)
    (hG : Gm eig n (cgPhi eig n) (List.replicate (n + 1) 1) b lam mu = 1)
    (ih : ∀ b', IsPartition n b' → kronN n (List.replicate n 1) b' mu = 1 → ∃ j < dimOf b', cgPhi eig n (List.replicate n 1) b' mu 0 0 0 j = cgsg eig n mu) :
    ∃ j < dimOf b, cgPhi eig (n + 1) (List.replicate (n + 1) 1) b lam (offOf (subs lam) mu) 0 0 j = cgsg eig (n + 1) lam := by
  have ha := isPartition_col (n + 1)
  have hI := inv_cgPhi he hn
  have hK := kmul_one hn ha hb (chi_col_sq (by omega)) hl hk hmu
  obtain ⟨⟨e1, e2⟩, h1, h2, h3⟩ := psi_one (Φ := cgPhi eig n) hK
  obtain ⟨he1, he2⟩ := mem_sprs.1 h1
  simp only at he1 he2 h2 h3
  obtain rfl := mem_subs_col he1
  obtain ⟨j, hj, e⟩ := ih e2 (sub_part hb e2 he2) h2
  have hlt := block_lt hn hb he2 hj
  refine ⟨offOf (subs b) e2 + j, hlt, ?_⟩
  have e0 : cgPhi eig (n + 1) = nextPhi eig n (cgPhi eig n) := by
    obtain ⟨m, rfl⟩ : ∃ m, n = m + 1 := ⟨n - 1, by omega⟩
    rfl
  have e1' := nextPhi_off (eig := eig) (n := n) (Φ := cgPhi eig n) (a := List.replicate (n + 1) 1) (b := b) hmu (dimOf_pos hn (sub_part hl mu hmu)) 0 0 (offOf (subs b) e2 + j)
  rw [add_zero] at e1'
  rw [e0, e1', nextB_one hI he hn ha hb hl hmu hk hK hG, h3, cgsg_add hl hmu]
  have ho : offOf (subs (List.replicate (n + 1) 1)) (List.replicate n 1) = 0 := by
    have := block_lt hn ha he1 (t := 0) (dimOf_pos hn (isPartition_col n))
    rw [dimOf_col (by omega)] at this
    omega
  unfold embP
  rw [if_pos]
  · simp only [ho, Nat.sub_zero, Nat.add_sub_cancel_left, e]
  · refine ⟨?_, (InBlk_off hn hb he2 he2 hj).2 rfl⟩
    unfold InBlk
    rw [ho, dimOf_col hn]
    omega

/-- the first row -/
theorem phi_col_zero (he : EigOk eig) {n : Nat} (hn : 1 ≤ n) {b lam : List Nat} (hb : IsPartition n b) (hl : IsPartition n lam)
    (hk : kronN n (List.replicate n 1) b lam = 1) : ∃ j < dimOf b, cgPhi eig n (List.replicate n 1) b lam 0 0 0 j = cgsg eig n lam := by
  induction n, hn using Nat.le_induction generalizing b lam with
  | base =>
    obtain rfl := isPartition_one hl
    exact ⟨0, dimOf_pos le_rfl hb, by rw [cgsg_one he]; rfl⟩
  | succ n hn ih =>
    have h0 := mu0_mem hn hl
    have := phi_col_step he hn hb hl hk h0 (by unfold Gm; rw [if_pos rfl]) fun b' hb' hk' => ih hb' (sub_part hl _ h0) hk'
    rwa [mu0_off h0] at this

end

/-! ## Hooks with three boxes below the first row -/

theorem dropZeroLast_eq {q : List Nat} (h : ∀ x ∈ q, 0 < x) : dropZeroLast q = q := by
  unfold dropZeroLast
  rw [if_neg]
  intro h0
  have := h 0 (List.mem_of_getLast? h0)
  omega

theorem hook_part {p k : Nat} (hp : 1 ≤ p) : IsPartition (p + k) (p :: List.replicate k 1) := by
  refine ⟨?_, ?_, by simp⟩
  · rw [List.pairwise_cons]
    refine ⟨fun x hx => ?_, by rw [List.pairwise_replicate]; simp⟩
    rw [List.eq_of_mem_replicate hx]; exact hp
  · intro x hx
    rcases List.mem_cons.1 hx with rfl | hx
    · omega
    · rw [List.eq_of_mem_replicate hx]; omega

theorem row_hook (p k i : Nat) : row (p :: List.replicate k 1) i = if i = 0 then p else if i ≤ k then 1 else 0 := by
  unfold row
  rcases i with _ | i
  · simp
  · rw [List.getElem?_cons_succ, List.getElem?_replicate, if_neg (c := i + 1 = 0) (by omega)]
    by_cases h : i < k
    · rw [if_pos h, if_pos (by omega)]; rfl
    · rw [if_neg h, if_neg (by omega)]; rfl

theorem mem_subs_hook_leg {p k : Nat} (hp : 1 ≤ p) : p :: List.replicate k 1 ∈ subs (p :: List.replicate (k + 1) 1) := by
  refine (mem_subs (n := p + k) (hook_part (k := k + 1) hp) _).2 ⟨hook_part hp, k + 1, fun i => ?_⟩
  rw [row_hook, row_hook]
  split_ifs <;> omega

theorem mem_subs_hook_arm {p k : Nat} (hp : 1 ≤ p) : p :: List.replicate k 1 ∈ subs ((p + 1) :: List.replicate k 1) := by
  have h := hook_part (p := p + 1) (k := k) (by omega)
  rw [show p + 1 + k = p + k + 1 by omega] at h
  refine (mem_subs h _).2 ⟨hook_part hp, 0, fun i => ?_⟩
  rw [row_hook, row_hook]
  split_ifs <;> omega

theorem topc_leg {p k : Nat} (hp : 1 ≤ p) : topc (p :: List.replicate (k + 1) 1) (p :: List.replicate k 1) = -(k + 1 : Int) := by
  have h : AddsBoxAt (p :: List.replicate k 1) (p :: List.replicate (k + 1) 1) (k + 1) := fun i => by
    rw [row_hook, row_hook]
    split_ifs <;> omega
  unfold topc
  rw [growRow_eq (hook_part hp) (hook_part hp) h, row_hook, if_neg (by omega), if_pos le_rfl]
  push_cast; ring

theorem topc_arm {p k : Nat} (hp : 1 ≤ p) : topc ((p + 1) :: List.replicate k 1) (p :: List.replicate k 1) = p := by
  have h : AddsBoxAt (p :: List.replicate k 1) ((p + 1) :: List.replicate k 1) 0 := fun i => by
    rw [row_hook, row_hook]
    split_ifs <;> omega
  unfold topc
  rw [growRow_eq (hook_part hp) (hook_part (by omega)) h, row_hook, if_pos rfl]
  push_cast; ring

theorem mu0_hook {p k : Nat} : mu0 (p :: List.replicate (k + 1) 1) = p :: List.replicate k 1 := by
  unfold mu0 subs
  have e : (List.range (p :: List.replicate (k + 1) 1).length).reverse = (k + 1) :: (List.range (k + 1)).reverse := by
    rw [List.length_cons, List.length_replicate, List.range_succ, List.reverse_append]; rfl
  rw [e, List.filter_cons_of_pos (by rw [row_hook, row_hook]; simp)]
  rw [List.map_cons, List.headD_cons, row_hook, if_neg (by omega), if_pos le_rfl, List.set_cons_succ]
  have : (List.replicate (k + 1) 1).set k (1 - 1) = List.replicate k 1 ++ [0] := by
    rw [List.replicate_succ', List.set_append_right _ _ (by simp)]
    simp
  rw [this]
  unfold dropZeroLast
  rw [if_pos (by rw [← List.cons_append, List.getLast?_append]; rfl), ← List.cons_append, List.dropLast_concat]

/-- the contents along the first row -/
theorem ct_hook {p : Nat} (hp : 1 ≤ p) (k : Nat) {i : Nat} (hi : i < p + k) :
    ct (p + k) (p :: List.replicate k 1) 0 i = if i < p then (i : Int) else (p : Int) - 1 - i := by
  induction k with
  | zero =>
    rw [if_pos (by omega)]
    have h : 0 < (irrOf [p]).d := dimOf_pos hp (isPartition_row hp)
    have := ct_eq hp (isPartition_row hp) ⟨0, h⟩ i
    rw [cont_row hp _ (by omega) (by omega)] at this
    push_cast at this
    rw [add_sub_cancel_right] at this
    exact this
  | succ k ih =>
    have hl : IsPartition (p + k + 1) (p :: List.replicate (k + 1) 1) := hook_part (k := k + 1) hp
    have h0 := mu0_mem (by omega) hl
    have ho := mu0_off h0
    rw [mu0_hook] at h0 ho
    have hd := dimOf_pos (by omega) (hook_part (k := k) hp)
    by_cases h : i < p + k
    · have := ct_block (by omega) hl h0 hd h
      rw [ho] at this
      exact this.trans (ih h)
    · have := ct_top (by omega) hl h0 hd
      rw [ho, topc_leg hp] at this
      rw [show i = p + k by omega, if_neg (by omega)]
      refine this.trans ?_
      push_cast; ring

/-- **the coefficients are not compatible with the action** -/
theorem not_equi {eig : Eig} (he : EigOk eig) {n : Nat} (hn : 5 ≤ n) : ¬ EquiPhi n (cgPhi eig n) := by
  intro hΦ
  obtain ⟨m, rfl⟩ : ∃ m, n = m + 1 + 3 + 1 := ⟨n - 5, by omega⟩
  set n := m + 1 + 3 with hn'
  obtain ⟨lam, hlam⟩ : ∃ lam, lam = (m + 2) :: List.replicate 3 1 := ⟨_, rfl⟩
  obtain ⟨mu, hmu⟩ : ∃ mu, mu = (m + 1) :: List.replicate 3 1 := ⟨_, rfl⟩
  have hl : IsPartition (n + 1) lam := by rw [hlam]; exact (by omega : m + 2 + 3 = n + 1) ▸ hook_part (p := m + 2) (k := 3) (by omega)
  have hm : mu ∈ subs lam := by rw [hmu, hlam]; exact mem_subs_hook_arm (by omega)
  have ha := isPartition_col (n + 1)
  have hN : 1 ≤ n := by omega
  obtain ⟨b, hb, hk⟩ := kron_one_exists ha hl (chi_col_sq (by omega))
  rw [kronN_swap23] at hk
  -- the contents of two rows
  have c0 : ∀ i < n + 1, ct (n + 1) lam 0 i = if i < m + 2 then (i : Int) else (m : Int) + 1 - i := by
    intro i hi
    have := ct_hook (p := m + 2) (by omega) 3 (i := i) (by omega)
    rw [show m + 2 + 3 = n + 1 by omega, ← hlam] at this
    rw [this]
    push_cast; split_ifs <;> ring
  have hd := dimOf_pos hN (sub_part hl mu hm)
  have c1 : ∀ i < n + 1, ct (n + 1) lam (offOf (subs lam) mu) i = if i < m + 1 then (i : Int) else if i < n then (m : Int) - i else m + 1 := by
    intro i hi
    by_cases h : i < n
    · have e1 := ct_block hN hl hm hd h
      have e2 := ct_hook (p := m + 1) (by omega) 3 (i := i) h
      rw [← hmu] at e2
      rw [add_zero] at e1
      rw [e1, e2, if_pos h]
      push_cast; split_ifs <;> ring
    · have e1 := ct_top hN hl hm hd
      rw [add_zero] at e1
      have e2 := topc_arm (p := m + 1) (k := 3) (by omega)
      rw [← hmu, ← hlam] at e2
      rw [if_neg (by omega), if_neg h, show i = n by omega, e1, e2]
      push_cast; ring
  -- the rows as words
  have l0 : 0 < (irrOf lam).d := dimOf_pos (by omega) hl
  have l1 : offOf (subs lam) mu < (irrOf lam).d := by have := block_lt hN hl hm hd; rwa [add_zero] at this
  set u0 := eqvR (by omega) hl ⟨0, l0⟩ with hu0
  set us := eqvR (by omega) hl ⟨_, l1⟩ with hus
  have d0 : ∀ i < n + 1, u0.cont (i + 1) = if i < m + 2 then (i : Int) else (m : Int) + 1 - i := fun i hi => by rw [← ct_eq, c0 i hi]
  have d1 : ∀ i < n + 1, us.cont (i + 1) = if i < m + 1 then (i : Int) else if i < n then (m : Int) - i else m + 1 := fun i hi => by rw [← ct_eq, c1 i hi]
  -- the block is not aligned
  have hA : Am n lam mu = 0 := by
    unfold Am
    rw [evalN_rho (by omega) hl _ ⟨_, l1⟩ ⟨0, l0⟩, rho_adj hl (by omega)]
    unfold yorM
    have e0 := d0 (m + 1) (by omega)
    have e1 := d1 (m + 1) (by omega)
    rw [if_pos (by omega)] at e0
    rw [if_neg (by omega), if_pos (by omega)] at e1
    push_cast at e0 e1
    rw [if_neg, if_neg]
    · intro h
      have := congrFun h (m + 1 + 1)
      rw [sw_ne _ (by omega) (by omega)] at this
      rw [← hu0, ← hus] at this
      omega
    · intro h
      rw [← hu0, ← hus] at h
      rw [h] at e0
      omega
  have hG : Gm eig n (cgPhi eig n) (List.replicate (n + 1) 1) b lam mu = 1 := by
    unfold Gm
    rw [hA, if_neg (c := |(0 : ℝ)| > 0.0001) (by rw [abs_zero]; norm_num), ite_self]
  -- the values
  obtain ⟨j0, hj0, w0⟩ := phi_col_zero he (by omega) hb hl hk
  obtain ⟨j1, hj1, w1⟩ := phi_col_step he hN hb hl hk hm hG fun b' hb' hk' => phi_col_zero he hN hb' (sub_part hl mu hm) hk'
  obtain ⟨W, hW⟩ : ∃ W : Wd (n + 1) lam → Wd (n + 1) b → ℝ, ∀ i j, W (eqvR (by omega) hl i) (eqvR (by omega) hb j) =
      cgPhi eig (n + 1) (List.replicate (n + 1) 1) b lam i 0 0 j :=
    ⟨fun u v => cgPhi eig (n + 1) (List.replicate (n + 1) 1) b lam ((eqvR (by omega) hl).symm u) 0 0 ((eqvR (by omega) hb).symm v), fun i j => by simp⟩
  have hT : Twist hl hb W := by
    intro σ u v
    obtain ⟨i, rfl⟩ := (eqvR (by omega) hl).surjective u
    obtain ⟨j, rfl⟩ := (eqvR (by omega) hb).surjective v
    have hda : dimOf (List.replicate (n + 1) 1) = 1 := dimOf_col (by omega)
    obtain ⟨x, hx1, hx2⟩ := exists_XI (a := List.replicate (n + 1) 1) (b := b) (i := 0) (j := j) (by rw [hda]; omega) j.2
    have h := hΦ _ b lam ha hb hl 0 (by omega) i i.2 σ x
    unfold pm at h
    rw [hx1, hx2, sum_XI (a := List.replicate (n + 1) 1) (b := b) (fun i' j' => evalN (List.replicate (n + 1) 1) (enc σ) i' 0 * evalN b (enc σ) j' j *
      cgPhi eig (n + 1) (List.replicate (n + 1) 1) b lam i 0 i' j'), hda, Finset.sum_range_one, evalN_col (by omega)] at h
    rw [← (eqvR (by omega) hb).sum_comp, ← (eqvR (by omega) hl).sum_comp]
    simp only [hW, ← evalN_rho]
    rw [Finset.sum_range, Finset.sum_range] at h
    rw [Finset.mul_sum]
    refine (Finset.sum_congr rfl fun k _ => ?_).trans h
    ring
  have v0 : W u0 (eqvR (by omega) hb ⟨j0, hj0⟩) = cgsg eig (n + 1) lam := by rw [hu0, hW]; exact w0
  have v1 : W us (eqvR (by omega) hb ⟨j1, hj1⟩) = cgsg eig (n + 1) lam := by rw [hus, hW]; exact w1
  have hs := cgsg_ne he (n + 1) lam
  -- three exchanges
  have a0 := d0 (m + 1) (by omega)
  have a1 := d0 (m + 2) (by omega)
  have a2 := d0 (m + 3) (by omega)
  have a3 := d0 (m + 4) (by omega)
  rw [if_pos (by omega)] at a0
  rw [if_neg (by omega)] at a1 a2 a3
  push_cast at a0 a1 a2 a3
  have o1 : offc (u0.cont (m + 3) - u0.cont (m + 2)) ≠ 0 := offc_ne_zero (Or.inr (by rw [a0, a1]; omega))
  obtain ⟨u1, e1⟩ := u0.exists_sw hl (k := m + 2) (by omega) (by omega) o1
  have b1 : u1.cont (m + 3) = u0.cont (m + 2) := by rw [e1, sw_hi]
  have b2 : u1.cont (m + 4) = u0.cont (m + 4) := by rw [e1, sw_ne _ (by omega) (by omega)]
  have o2 : offc (u1.cont (m + 4) - u1.cont (m + 3)) ≠ 0 := offc_ne_zero (Or.inr (by rw [b1, b2, a0, a2]; omega))
  obtain ⟨u2, e2⟩ := u1.exists_sw hl (k := m + 3) (by omega) (by omega) o2
  have b3 : u2.cont (m + 4) = u1.cont (m + 3) := by rw [e2, sw_hi]
  have b4 : u2.cont (m + 5) = u0.cont (m + 5) := by rw [e2, sw_ne _ (by omega) (by omega), e1, sw_ne _ (by omega) (by omega)]
  have o3 : offc (u2.cont (m + 5) - u2.cont (m + 4)) ≠ 0 := offc_ne_zero (Or.inr (by rw [b3, b4, b1, a0, a3]; omega))
  obtain ⟨u3, e3⟩ := u2.exists_sw hl (k := m + 4) (by omega) (by omega) o3
  obtain ⟨x1, f1⟩ := hT.step (by rw [v0]; exact hs) (k := m + 1) (by omega) e1 o1
  obtain ⟨x2, f2⟩ := hT.step (by rw [f1, v0]; exact neg_ne_zero.2 hs) (k := m + 2) (by omega) e2 o2
  obtain ⟨x3, f3⟩ := hT.step (by rw [f2, f1, v0, neg_neg]; exact hs) (k := m + 3) (by omega) e3 o3
  have h3 : u3 = us := by
    refine Wd.ext_cont hl fun i h1 h2 => ?_
    obtain ⟨i, rfl⟩ : ∃ i', i = i' + 1 := ⟨i - 1, by omega⟩
    rw [d1 i (by omega), e3]
    by_cases i4 : i = m + 4
    · subst i4
      rw [sw_hi, b3, b1, a0, if_neg (by omega), if_neg (by omega)]
    by_cases i3 : i = m + 3
    · subst i3
      rw [sw_lo, b4, a3, if_neg (by omega), if_pos (by omega)]
      push_cast; ring
    rw [sw_ne _ (by omega) (by omega), e2]
    by_cases i2 : i = m + 2
    · subst i2
      rw [sw_lo, b2, a2, if_neg (by omega), if_pos (by omega)]
      push_cast; ring
    rw [sw_ne _ (by omega) (by omega), e1]
    by_cases i1 : i = m + 1
    · subst i1
      rw [sw_lo, a1, if_neg (by omega), if_pos (by omega)]
      push_cast; ring
    rw [sw_ne _ (by omega) (by omega), d0 i (by omega), if_pos (by omega), if_pos (by omega)]
  rw [h3] at f3
  have h4 : x3 = eqvR (by omega) hb ⟨j1, hj1⟩ := hT.unique (u := us) (by rw [f3, f2, f1, v0, neg_neg]; exact neg_ne_zero.2 hs) (by rw [v1]; exact hs)
  rw [h4, v1, f2, f1, v0, neg_neg] at f3
  exact hs (by linarith)

end Snob
