import Verif.Proofs.CGPhi

/-! # The coefficients of the product: one step of the recursion -/

namespace Snob

open IP Matrix

section defs
variable (eig : Eig) (n : Nat) (Φ : Coef) (a b : List Nat)

/-- row zero of the products of the restrictions -/
noncomputable def Vm (mu : List Nat) : Matrix (XI a b) (Fin (kmul n a b mu)) ℝ := fun x k => psi n Φ a b mu 0 k (fstIx x) (sndIx x)

/-- the last Jucys-Murphy element there -/
noncomputable def Mm (mu : List Nat) : Matrix (Fin (kmul n a b mu)) (Fin (kmul n a b mu)) ℝ :=
  (Vm n Φ a b mu)ᵀ * jmX (n + 1) a b n * Vm n Φ a b mu

noncomputable def Um (mu : List Nat) : Matrix (Fin (kmul n a b mu)) (Fin (kmul n a b mu)) ℝ := (eig _ (Mm n Φ a b mu)).1

noncomputable def Dm (mu : List Nat) : Fin (kmul n a b mu) → ℝ := (eig _ (Mm n Φ a b mu)).2

/-- the eigenvalues taken for `lam` -/
noncomputable def Jm (lam mu : List Nat) : List (Fin (kmul n a b mu)) :=
  (List.finRange (kmul n a b mu)).filter fun i => decide (¬ |Dm eig n Φ a b mu i - (topc lam mu : ℝ)| > 0.001)

/-- the eigenvectors taken for `lam` -/
noncomputable def Sm (lam mu : List Nat) : Matrix (Fin (kmul n a b mu)) (Fin (kronN (n + 1) a b lam)) ℝ := fun k c =>
  if h : (c : Nat) < (Jm eig n Φ a b lam mu).length then Um eig n Φ a b mu k ((Jm eig n Φ a b lam mu)[(c : Nat)]) else 0

/-- the matrix entry by which the blocks are aligned -/
noncomputable def Am (n : Nat) (lam mu : List Nat) : ℝ := evalN lam (enc (adj (n + 1) (n - 1))) (offOf (subs lam) mu) 0

/-- the first constituent of the restriction -/
noncomputable def mu0 (lam : List Nat) : List Nat := (subs lam).headD []

noncomputable def Tm (lam : List Nat) : Matrix (XI a b) (Fin (kronN (n + 1) a b lam)) ℝ :=
  pm (n + 1) a b (adj (n + 1) (n - 1)) * (Vm n Φ a b (mu0 lam) * Sm eig n Φ a b lam (mu0 lam))

noncomputable def Bm (lam mu : List Nat) : Matrix (Fin (kronN (n + 1) a b lam)) (Fin (kronN (n + 1) a b lam)) ℝ :=
  (Sm eig n Φ a b lam mu)ᵀ * ((Vm n Φ a b mu)ᵀ * Tm eig n Φ a b lam)

/-- the matrix by which the block of `mu` is turned -/
noncomputable def Gm (lam mu : List Nat) : Matrix (Fin (kronN (n + 1) a b lam)) (Fin (kronN (n + 1) a b lam)) ℝ :=
  if mu = mu0 lam then 1 else if |Am n lam mu| > 0.0001 then (1 / Am n lam mu) • (Bm eig n Φ a b lam mu)ᵀ else 1

noncomputable def Fm (lam mu : List Nat) : Matrix (Fin (kmul n a b mu)) (Fin (kronN (n + 1) a b lam)) ℝ :=
  Sm eig n Φ a b lam mu * Gm eig n Φ a b lam mu

/-- row `t` of the block of `mu` in the part of `lam` -/
noncomputable def nextB (lam mu : List Nat) (t c i j : Nat) : ℝ :=
  if h : c < kronN (n + 1) a b lam then ∑ k : Fin (kmul n a b mu), psi n Φ a b mu t k i j * Fm eig n Φ a b lam mu k ⟨c, h⟩ else 0

end defs

/-- the coefficients for `n + 1` from those for `n` -/
noncomputable def nextPhi (eig : Eig) (n : Nat) (Φ : Coef) : Coef := fun a b lam r c i j =>
  ((rowsOf (subs lam))[r]?.map fun e => nextB eig n Φ a b lam e.1 e.2 c i j).getD 0

/-- the coefficients computed by the code -/
noncomputable def cgPhi (eig : Eig) : Nat → Coef
  | 0 => fun _ _ _ _ _ _ _ => 0
  | 1 => fun _ _ _ _ _ _ _ => 1
  | n + 2 => nextPhi eig (n + 1) (cgPhi eig (n + 1))

theorem rowsOf_off {S : List (List Nat)} (hS : S.Nodup) {mu : List Nat} (hmu : mu ∈ S) {t : Nat} (ht : t < dimOf mu) :
    (rowsOf S)[offOf S mu + t]? = some (mu, t) := by
  obtain ⟨S1, S2, rfl⟩ := List.append_of_mem hmu
  have h1 : mu ∉ S1 := fun h => (List.nodup_append.1 hS).2.2 mu h mu (by simp) rfl
  have ho : offOf (S1 ++ mu :: S2) mu = (rowsOf S1).length := by
    unfold offOf
    rw [takeWhile_split h1, rowsOf_length]
  have : rowsOf (S1 ++ mu :: S2) = rowsOf S1 ++ (((List.range (dimOf mu)).map fun a => (mu, a)) ++ rowsOf S2) := by
    unfold rowsOf; rw [List.flatMap_append, List.flatMap_cons]
  rw [this, ho, List.getElem?_append_right (by omega), Nat.add_sub_cancel_left, List.getElem?_append_left (by simpa using ht)]
  simp [ht]

theorem nextPhi_off {eig : Eig} {n : Nat} {Φ : Coef} {a b lam mu : List Nat} (hmu : mu ∈ subs lam) {t : Nat} (ht : t < dimOf mu) (c i j : Nat) :
    nextPhi eig n Φ a b lam (offOf (subs lam) mu + t) c i j = nextB eig n Φ a b lam mu t c i j := by
  unfold nextPhi
  rw [rowsOf_off (subs_nodup lam) hmu ht]
  rfl

theorem dimOf_pos {n : Nat} (hn : 1 ≤ n) {x : List Nat} (hx : IsPartition n x) : 0 < dimOf x := by
  have := Fintype.card_congr (eqvR hn hx)
  rw [Fintype.card_fin] at this
  unfold dimOf
  rw [this]
  exact card_Wd_pos hx

theorem mu0_mem {n : Nat} {lam : List Nat} (hn : 1 ≤ n) (hl : IsPartition (n + 1) lam) : mu0 lam ∈ subs lam := by
  unfold mu0
  have h : 0 < dimOf lam := dimOf_pos (by omega) hl
  rw [dimOf_subs hn hl] at h
  cases hS : subs lam with
  | nil => rw [hS] at h; simp at h
  | cons x S => simp

theorem mu0_off {lam : List Nat} (h : mu0 lam ∈ subs lam) : offOf (subs lam) (mu0 lam) = 0 := by
  unfold offOf mu0 at *
  cases hS : subs lam with
  | nil => rw [hS] at h; simp at h
  | cons x S => simp

/-! ## The eigenvectors -/

section
variable {n : Nat} {a b : List Nat} {Φ : Coef} {eig : Eig} {E : List Nat → Nat → Nat → XI a b → ℝ}

/-- the copies of the constituents that contain `mu` -/
abbrev Sup (n : Nat) (a b mu : List Nat) := Σ x : {x : Pt (n + 1) // mu ∈ subs x.1}, Fin (kronN (n + 1) a b x.1.1)

theorem card_Sup (hn : 1 ≤ n) (ha : IsPartition (n + 1) a) (hb : IsPartition (n + 1) b) {mu : List Nat} (hmu : IsPartition n mu) :
    Fintype.card (Sup n a b mu) = kmul n a b mu := by
  rw [kmul_eq hn ha hb hmu, Fintype.card_sigma, ← Finset.sum_filter,
    Finset.sum_subtype (Finset.univ.filter fun x : Pt (n + 1) => mu ∈ subs x.1) (p := fun x => mu ∈ subs x.1) (F := inferInstance) (by simp)]
  simp

/-- the first rows of the blocks of `mu` -/
noncomputable def Em (E : List Nat → Nat → Nat → XI a b → ℝ) (n : Nat) (mu : List Nat) : Matrix (XI a b) (Sup n a b mu) ℝ :=
  fun x i => E i.1.1.1 i.2 (offOf (subs i.1.1.1) mu) x

def fm (n : Nat) (a b mu : List Nat) (i : Sup n a b mu) : ℝ := topc i.1.1.1 mu

theorem offOf_lt (hn : 1 ≤ n) {x mu : List Nat} (hx : IsPartition (n + 1) x) (hmu : mu ∈ subs x) : offOf (subs x) mu < dimOf x :=
  block_lt hn hx hmu (t := 0) (dimOf_pos hn (sub_part hx mu hmu))

theorem Em_orth (hE : Ref (n + 1) a b E) (hn : 1 ≤ n) (mu : List Nat) : (Em E n mu)ᵀ * Em E n mu = 1 := by
  ext ⟨⟨x, hx⟩, c⟩ ⟨⟨y, hy⟩, d⟩
  rw [Matrix.mul_apply, Matrix.one_apply]
  refine (hE.orth x.2 y.2 c.2 (offOf_lt hn x.2 hx) d.2 (offOf_lt hn y.2 hy)).trans (if_congr ?_ rfl rfl)
  constructor
  · rintro ⟨e1, e2, -⟩
    have : x = y := Subtype.ext e1
    subst this
    have : c = d := Fin.ext e2
    subst this
    rfl
  · intro h
    obtain ⟨h1, h2⟩ := Sigma.mk.inj h
    have h1 : x = y := congrArg Subtype.val h1
    subst h1
    have := eq_of_heq h2
    subst this
    exact ⟨rfl, rfl, rfl⟩

theorem Em_jm (hE : Ref (n + 1) a b E) (hn : 1 ≤ n) (mu : List Nat) :
    jmX (n + 1) a b n * Em E n mu = Em E n mu * Matrix.diagonal (fm n a b mu) := by
  ext x ⟨⟨y, hy⟩, c⟩
  rw [Matrix.mul_apply, Matrix.mul_diagonal]
  refine (hE.weight (by omega) y.2 c.2 (offOf_lt hn y.2 hy) (by omega) x).trans ?_
  have : ct (n + 1) y.1 (offOf (subs y.1) mu) n = topc y.1 mu := ct_top hn y.2 hy (t := 0) (dimOf_pos hn (sub_part y.2 mu hy))
  rw [this, mul_comm]
  rfl

theorem Vm_expand (h : Inv n Φ) (hE : Ref (n + 1) a b E) (hn : 1 ≤ n) (ha : IsPartition (n + 1) a) (hb : IsPartition (n + 1) b)
    {mu : List Nat} (hmu : IsPartition n mu) : Vm n Φ a b mu = Em E n mu * ((Em E n mu)ᵀ * Vm n Φ a b mu) := by
  ext x k
  have hz : ∀ (p : Pt (n + 1)) (c : Fin (kronN (n + 1) a b p.1)) (r : Fin (irrOf p.1).d),
      ¬ (mu ∈ subs p.1 ∧ (r : Nat) = offOf (subs p.1) mu) → ∑ y, E p.1 c r y * Vm n Φ a b mu y k = 0 := by
    intro p c r hne
    obtain ⟨nu, hnu, t, ht, et⟩ := exists_block hn p.2 (r := r) r.2
    by_contra hcon
    apply hne
    have hw : ∀ l < n, ct n nu t l = ct n mu 0 l := by
      intro l hl
      by_contra h'
      refine hcon (hE.support (by omega) ha hb (k := l) (by omega) (w := ct n mu 0 l)
        (fun x => psi_wt h hn ha hb hmu k.2 hl x) p.2 c.2 r.2 ?_)
      rw [et, ct_block hn p.2 hnu ht hl]
      exact_mod_cast h'
    obtain ⟨e1, e2⟩ := ct_inj hn (sub_part p.2 nu hnu) hmu ht (dimOf_pos hn hmu) hw
    subst e1
    exact ⟨hnu, by rw [et, e2, Nat.add_zero]⟩
  rw [hE.expand (fun x => Vm n Φ a b mu x k) x, Matrix.mul_apply, Fintype.sum_sigma]
  have e : ∀ p : Pt (n + 1), (∑ c : Fin (kronN (n + 1) a b p.1), ∑ r : Fin (irrOf p.1).d, (∑ y, E p.1 c r y * Vm n Φ a b mu y k) * E p.1 c r x) =
      if mu ∈ subs p.1 then ∑ c : Fin (kronN (n + 1) a b p.1), (∑ y, E p.1 c (offOf (subs p.1) mu) y * Vm n Φ a b mu y k) *
        E p.1 c (offOf (subs p.1) mu) x else 0 := by
    intro p
    split_ifs with hm
    · refine Finset.sum_congr rfl fun c _ => ?_
      rw [Finset.sum_eq_single (⟨offOf (subs p.1) mu, offOf_lt hn p.2 hm⟩ : Fin (irrOf p.1).d)]
      · intro r _ hr
        rw [hz p c r, zero_mul]
        rintro ⟨-, h'⟩
        exact hr (Fin.ext h')
      · intro h'; exact absurd (Finset.mem_univ _) h'
    · refine Finset.sum_eq_zero fun c _ => Finset.sum_eq_zero fun r _ => ?_
      rw [hz p c r (fun h' => hm h'.1), zero_mul]
  rw [Finset.sum_congr rfl fun p _ => e p, ← Finset.sum_filter,
    Finset.sum_subtype (Finset.univ.filter fun x : Pt (n + 1) => mu ∈ subs x.1) (p := fun x => mu ∈ subs x.1) (by simp)]
  refine Finset.sum_congr rfl fun p _ => Finset.sum_congr rfl fun c _ => ?_
  rw [Matrix.mul_apply, mul_comm]
  rfl

theorem Vm_orth (h : Inv n Φ) (hn : 1 ≤ n) (ha : IsPartition (n + 1) a) (hb : IsPartition (n + 1) b)
    {mu : List Nat} (hmu : IsPartition n mu) : (Vm n Φ a b mu)ᵀ * Vm n Φ a b mu = 1 := by
  ext k l
  rw [Matrix.mul_apply, Matrix.one_apply]
  refine (psi_orth h hn ha hb hmu hmu (dimOf_pos hn hmu) (dimOf_pos hn hmu) k.2 l.2).trans (if_congr ?_ rfl rfl)
  exact ⟨fun h => Fin.ext h.2.1, fun h => ⟨rfl, congrArg _ h, rfl⟩⟩

theorem Mm_symm (hn : 1 ≤ n) (ha : IsPartition (n + 1) a) (hb : IsPartition (n + 1) b) (mu : List Nat) : (Mm n Φ a b mu).IsSymm := by
  unfold Matrix.IsSymm Mm
  rw [Matrix.transpose_mul, Matrix.transpose_mul, jmX_symm (by omega) ha hb, Matrix.transpose_transpose, Matrix.mul_assoc]

/-- the products of the restrictions in terms of the copies of the constituents -/
noncomputable def Qm (E : List Nat → Nat → Nat → XI a b → ℝ) (n : Nat) (Φ : Coef) (mu : List Nat) : Matrix (Sup n a b mu) (Fin (kmul n a b mu)) ℝ :=
  (Em E n mu)ᵀ * Vm n Φ a b mu

theorem Qm_orth (h : Inv n Φ) (hE : Ref (n + 1) a b E) (hn : 1 ≤ n) (ha : IsPartition (n + 1) a) (hb : IsPartition (n + 1) b)
    {mu : List Nat} (hmu : IsPartition n mu) : (Qm E n Φ mu)ᵀ * Qm E n Φ mu = 1 := by
  conv_lhs => rw [Qm, Matrix.transpose_mul, Matrix.transpose_transpose, Matrix.mul_assoc, ← Vm_expand h hE hn ha hb hmu]
  exact Vm_orth h hn ha hb hmu

theorem Mm_eq (h : Inv n Φ) (hE : Ref (n + 1) a b E) (hn : 1 ≤ n) (ha : IsPartition (n + 1) a) (hb : IsPartition (n + 1) b)
    {mu : List Nat} (hmu : IsPartition n mu) : Mm n Φ a b mu = (Qm E n Φ mu)ᵀ * Matrix.diagonal (fm n a b mu) * Qm E n Φ mu := by
  have e := Vm_expand h hE hn ha hb hmu
  unfold Mm
  conv_lhs => rw [Matrix.mul_assoc]; arg 2; rw [e, ← Matrix.mul_assoc, Em_jm hE hn]
  unfold Qm
  simp only [Matrix.transpose_mul, Matrix.transpose_transpose, Matrix.mul_assoc]

theorem Um_eq (h : Inv n Φ) (hE : Ref (n + 1) a b E) (he : EigOk eig) (hn : 1 ≤ n) (ha : IsPartition (n + 1) a) (hb : IsPartition (n + 1) b)
    {mu : List Nat} (hmu : IsPartition n mu) : (Qm E n Φ mu)ᵀ * Matrix.diagonal (fm n a b mu) * Qm E n Φ mu * Um eig n Φ a b mu =
      Um eig n Φ a b mu * Matrix.diagonal (Dm eig n Φ a b mu) := by
  rw [← Mm_eq h hE hn ha hb hmu]
  exact (he _ _ (Mm_symm hn ha hb mu)).2

theorem Um_orth (he : EigOk eig) (hn : 1 ≤ n) (ha : IsPartition (n + 1) a) (hb : IsPartition (n + 1) b) (mu : List Nat) :
    (Um eig n Φ a b mu)ᵀ * Um eig n Φ a b mu = 1 := (he _ _ (Mm_symm hn ha hb mu)).1

/-- the eigenvalues are contents -/
theorem Dm_int (h : Inv n Φ) (he : EigOk eig) (hn : 1 ≤ n) (ha : IsPartition (n + 1) a) (hb : IsPartition (n + 1) b)
    {mu : List Nat} (hmu : IsPartition n mu) (j : Fin (kmul n a b mu)) : ∃ x, IsPartition (n + 1) x ∧ mu ∈ subs x ∧ Dm eig n Φ a b mu j = topc x mu := by
  obtain ⟨E, hE⟩ := exists_Ref (by omega) ha hb
  obtain ⟨⟨⟨x, hx⟩, c⟩, e⟩ := eig_exists (Qm_orth h hE hn ha hb hmu) (card_Sup hn ha hb hmu) (Um_orth he hn ha hb mu) (Um_eq h hE he hn ha hb hmu) j
  exact ⟨x.1, x.2, hx, e.symm⟩

theorem near_iff (h : Inv n Φ) (he : EigOk eig) (hn : 1 ≤ n) (ha : IsPartition (n + 1) a) (hb : IsPartition (n + 1) b)
    {mu : List Nat} (hmu : IsPartition n mu) (j : Fin (kmul n a b mu)) (z : Int) :
    ¬ |Dm eig n Φ a b mu j - z| > 0.001 ↔ Dm eig n Φ a b mu j = z := by
  obtain ⟨x, -, -, e⟩ := Dm_int h he hn ha hb hmu j
  rw [e]
  constructor
  · intro h'
    have h2 : |((topc x mu - z : Int) : ℝ)| < 1 := by
      push_cast
      refine lt_of_le_of_lt (not_lt.1 h') (by norm_num)
    have : |topc x mu - z| < 1 := by exact_mod_cast h2
    have : topc x mu = z := by rw [Int.abs_lt_one_iff] at this; omega
    exact_mod_cast this
  · intro h'
    rw [h', sub_self, abs_zero]
    norm_num

theorem mem_Jm (h : Inv n Φ) (he : EigOk eig) (hn : 1 ≤ n) (ha : IsPartition (n + 1) a) (hb : IsPartition (n + 1) b)
    {mu : List Nat} (hmu : IsPartition n mu) (lam : List Nat) (j : Fin (kmul n a b mu)) :
    j ∈ Jm eig n Φ a b lam mu ↔ Dm eig n Φ a b mu j = topc lam mu := by
  unfold Jm
  rw [List.mem_filter, decide_eq_true_iff, near_iff h he hn ha hb hmu]
  simp

theorem Jm_nodup (lam mu : List Nat) : (Jm eig n Φ a b lam mu).Nodup := (List.nodup_finRange _).filter _

/-- there are as many eigenvectors as copies of the constituent -/
theorem Jm_length (h : Inv n Φ) (he : EigOk eig) (hn : 1 ≤ n) (ha : IsPartition (n + 1) a) (hb : IsPartition (n + 1) b)
    {lam mu : List Nat} (hl : IsPartition (n + 1) lam) (hmu : mu ∈ subs lam) : (Jm eig n Φ a b lam mu).length = kronN (n + 1) a b lam := by
  have hm := sub_part hl mu hmu
  obtain ⟨E, hE⟩ := exists_Ref (by omega) ha hb
  have hc := eig_count (Qm_orth h hE hn ha hb hm) (card_Sup hn ha hb hm) (Um_orth he hn ha hb mu) (Um_eq h hE he hn ha hb hm) (topc lam mu)
  have h1 : (Jm eig n Φ a b lam mu).length = (Finset.univ.filter fun j => Dm eig n Φ a b mu j = topc lam mu).card := by
    rw [← List.toFinset_card_of_nodup (Jm_nodup lam mu)]
    congr 1
    ext j
    rw [List.mem_toFinset, mem_Jm h he hn ha hb hm]
    simp
  have h2 : (Finset.univ.filter fun i : Sup n a b mu => fm n a b mu i = topc lam mu).card = kronN (n + 1) a b lam := by
    rw [← Fintype.card_fin (kronN (n + 1) a b lam), ← Finset.card_univ]
    refine Finset.card_bij' (t := (Finset.univ : Finset (Fin (kronN (n + 1) a b lam)))) (fun i hi => ⟨i.2, ?_⟩)
      (fun c _ => ⟨⟨⟨lam, hl⟩, hmu⟩, c⟩) ?_ ?_ ?_ ?_
    · have h' := (Finset.mem_filter.1 hi).2
      have : i.1.1.1 = lam := by
        by_contra hne
        exact topc_ne_sup i.1.1.2 hl i.1.2 hmu hne (by unfold fm at h'; exact_mod_cast h')
      rw [← this]
      exact i.2.2
    · intro i _; exact Finset.mem_univ _
    · intro c _
      rw [Finset.mem_filter]
      exact ⟨Finset.mem_univ _, rfl⟩
    · rintro ⟨⟨⟨x, hx⟩, hx'⟩, c⟩ hi
      have h' := (Finset.mem_filter.1 hi).2
      have : x = lam := by
        by_contra hne
        exact topc_ne_sup hx hl hx' hmu hne (by unfold fm at h'; exact_mod_cast h')
      subst this
      rfl
    · intro c _; rfl
  rw [h1, hc, h2]

theorem Sm_eq (h : Inv n Φ) (he : EigOk eig) (hn : 1 ≤ n) (ha : IsPartition (n + 1) a) (hb : IsPartition (n + 1) b)
    {lam mu : List Nat} (hl : IsPartition (n + 1) lam) (hmu : mu ∈ subs lam) (c : Fin (kronN (n + 1) a b lam)) :
    ∃ j ∈ Jm eig n Φ a b lam mu, (Jm eig n Φ a b lam mu)[(c : Nat)]? = some j ∧ ∀ k, Sm eig n Φ a b lam mu k c = Um eig n Φ a b mu k j := by
  have hc : (c : Nat) < (Jm eig n Φ a b lam mu).length := by rw [Jm_length h he hn ha hb hl hmu]; exact c.2
  refine ⟨(Jm eig n Φ a b lam mu)[(c : Nat)], List.getElem_mem hc, List.getElem?_eq_getElem hc, fun k => ?_⟩
  unfold Sm
  rw [dif_pos hc]

theorem Sm_orth (h : Inv n Φ) (he : EigOk eig) (hn : 1 ≤ n) (ha : IsPartition (n + 1) a) (hb : IsPartition (n + 1) b)
    {lam mu : List Nat} (hl : IsPartition (n + 1) lam) (hmu : mu ∈ subs lam) : (Sm eig n Φ a b lam mu)ᵀ * Sm eig n Φ a b lam mu = 1 := by
  ext c d
  obtain ⟨j, -, hj, e1⟩ := Sm_eq h he hn ha hb hl hmu c
  obtain ⟨l, -, hl', e2⟩ := Sm_eq h he hn ha hb hl hmu d
  have := congrFun (congrFun (Um_orth (Φ := Φ) he hn ha hb mu) j) l
  rw [Matrix.mul_apply, Matrix.one_apply] at this
  rw [Matrix.mul_apply, Matrix.one_apply]
  simp only [Matrix.transpose_apply, e1, e2] at this ⊢
  rw [this]
  refine if_congr ?_ rfl rfl
  constructor
  · rintro rfl
    rw [← hl'] at hj
    have hc : (c : Nat) < (Jm eig n Φ a b lam mu).length := by rw [Jm_length h he hn ha hb hl hmu]; exact c.2
    exact Fin.ext ((List.getElem?_inj hc (Jm_nodup lam mu)).1 hj)
  · rintro rfl
    exact Option.some.inj (hj.symm.trans hl')

theorem Sm_orth_ne (h : Inv n Φ) (he : EigOk eig) (hn : 1 ≤ n) (ha : IsPartition (n + 1) a) (hb : IsPartition (n + 1) b)
    {lam lam' mu : List Nat} (hl : IsPartition (n + 1) lam) (hmu : mu ∈ subs lam) (hl' : IsPartition (n + 1) lam') (hmu' : mu ∈ subs lam')
    (hne : lam ≠ lam') : (Sm eig n Φ a b lam mu)ᵀ * Sm eig n Φ a b lam' mu = 0 := by
  ext c d
  obtain ⟨j, hj, -, e1⟩ := Sm_eq h he hn ha hb hl hmu c
  obtain ⟨l, hl1, -, e2⟩ := Sm_eq h he hn ha hb hl' hmu' d
  have := congrFun (congrFun (Um_orth (Φ := Φ) he hn ha hb mu) j) l
  rw [Matrix.mul_apply, Matrix.one_apply] at this
  rw [Matrix.mul_apply]
  simp only [Matrix.transpose_apply, e1, e2] at this ⊢
  rw [this, if_neg]
  · rfl
  · rintro rfl
    have hm := sub_part hl mu hmu
    rw [mem_Jm h he hn ha hb hm] at hj hl1
    rw [hj] at hl1
    exact topc_ne_sup hl hl' hmu hmu' hne (by exact_mod_cast hl1)

/-- the first row of the block of `mu` in the copies of `lam` -/
noncomputable def Eb (E : List Nat → Nat → Nat → XI a b → ℝ) (n : Nat) (lam mu : List Nat) : Matrix (XI a b) (Fin (kronN (n + 1) a b lam)) ℝ :=
  fun x c => E lam c (offOf (subs lam) mu) x

theorem Eb_orth (hE : Ref (n + 1) a b E) (hn : 1 ≤ n) {lam mu : List Nat} (hl : IsPartition (n + 1) lam) (hmu : mu ∈ subs lam) :
    (Eb E n lam mu)ᵀ * Eb E n lam mu = 1 := by
  ext c d
  rw [Matrix.mul_apply, Matrix.one_apply]
  refine (hE.orth hl hl c.2 (offOf_lt hn hl hmu) d.2 (offOf_lt hn hl hmu)).trans (if_congr ?_ rfl rfl)
  exact ⟨fun h => Fin.ext h.2.1, fun h => ⟨rfl, congrArg _ h, rfl⟩⟩

/-- the eigenvectors in terms of the copies of `lam` -/
noncomputable def Om (E : List Nat → Nat → Nat → XI a b → ℝ) (eig : Eig) (n : Nat) (Φ : Coef) (lam mu : List Nat) :
    Matrix (Fin (kronN (n + 1) a b lam)) (Fin (kronN (n + 1) a b lam)) ℝ :=
  (Eb E n lam mu)ᵀ * (Vm n Φ a b mu * Sm eig n Φ a b lam mu)

theorem VS_eq (h : Inv n Φ) (hE : Ref (n + 1) a b E) (he : EigOk eig) (hn : 1 ≤ n) (ha : IsPartition (n + 1) a) (hb : IsPartition (n + 1) b)
    {lam mu : List Nat} (hl : IsPartition (n + 1) lam) (hmu : mu ∈ subs lam) :
    Vm n Φ a b mu * Sm eig n Φ a b lam mu = Eb E n lam mu * Om E eig n Φ lam mu := by
  have hm := sub_part hl mu hmu
  have hOm : ∀ c' c, Om E eig n Φ lam mu c' c = (Qm E n Φ mu * Sm eig n Φ a b lam mu) ⟨⟨⟨lam, hl⟩, hmu⟩, c'⟩ c := by
    intro c' c
    unfold Om Qm
    rw [Matrix.mul_assoc]
    rfl
  have hV : Vm n Φ a b mu * Sm eig n Φ a b lam mu = Em E n mu * (Qm E n Φ mu * Sm eig n Φ a b lam mu) := by
    conv_lhs => rw [Vm_expand h hE hn ha hb hm]
    unfold Qm
    simp only [Matrix.mul_assoc]
  ext x c
  rw [hV, Matrix.mul_apply, Matrix.mul_apply, Fintype.sum_sigma]
  obtain ⟨j, hj, -, ej⟩ := Sm_eq h he hn ha hb hl hmu c
  rw [Finset.sum_eq_single (⟨⟨lam, hl⟩, hmu⟩ : {x : Pt (n + 1) // mu ∈ subs x.1})]
  · refine Finset.sum_congr rfl fun c' _ => ?_
    rw [hOm]
    rfl
  · rintro ⟨⟨y, hy⟩, hy'⟩ _ hne
    refine Finset.sum_eq_zero fun c' _ => ?_
    have : (Qm E n Φ mu * Sm eig n Φ a b lam mu) ⟨⟨⟨y, hy⟩, hy'⟩, c'⟩ c = (Qm E n Φ mu * Um eig n Φ a b mu) ⟨⟨⟨y, hy⟩, hy'⟩, c'⟩ j := by
      rw [Matrix.mul_apply, Matrix.mul_apply]
      exact Finset.sum_congr rfl fun k _ => by rw [ej]
    rw [this]
    by_contra h'
    have h2 := eig_support (Qm_orth h hE hn ha hb hm) (card_Sup hn ha hb hm) (Um_eq h hE he hn ha hb hm) _ _ (right_ne_zero_of_mul h')
    rw [(mem_Jm h he hn ha hb hm lam j).1 hj] at h2
    refine topc_ne_sup hy hl hy' hmu (fun e => hne ?_) (by unfold fm at h2; exact_mod_cast h2)
    subst e
    rfl
  · intro h'; exact absurd (Finset.mem_univ _) h'

theorem Om_orth (h : Inv n Φ) (hE : Ref (n + 1) a b E) (he : EigOk eig) (hn : 1 ≤ n) (ha : IsPartition (n + 1) a) (hb : IsPartition (n + 1) b)
    {lam mu : List Nat} (hl : IsPartition (n + 1) lam) (hmu : mu ∈ subs lam) :
    (Om E eig n Φ lam mu)ᵀ * Om E eig n Φ lam mu = 1 ∧ Om E eig n Φ lam mu * (Om E eig n Φ lam mu)ᵀ = 1 := by
  have h1 : (Om E eig n Φ lam mu)ᵀ * Om E eig n Φ lam mu = 1 := by
    have e : (Vm n Φ a b mu * Sm eig n Φ a b lam mu)ᵀ * (Vm n Φ a b mu * Sm eig n Φ a b lam mu) = 1 := by
      rw [Matrix.transpose_mul, Matrix.mul_assoc, ← Matrix.mul_assoc (Vm n Φ a b mu)ᵀ, Vm_orth h hn ha hb (sub_part hl mu hmu), Matrix.one_mul,
        Sm_orth h he hn ha hb hl hmu]
    rw [VS_eq h hE he hn ha hb hl hmu, Matrix.transpose_mul, Matrix.mul_assoc, ← Matrix.mul_assoc (Eb E n lam mu)ᵀ, Eb_orth hE hn hl hmu,
      Matrix.one_mul] at e
    exact e
  exact ⟨h1, mul_eq_one_comm.1 h1⟩

theorem Eb_pm (hE : Ref (n + 1) a b E) (hn : 1 ≤ n) {lam mu : List Nat} (hl : IsPartition (n + 1) lam) (hmu : mu ∈ subs lam) :
    (Eb E n lam mu)ᵀ * (pm (n + 1) a b (adj (n + 1) (n - 1)) * Eb E n lam (mu0 lam)) = Am n lam mu • (1 : Matrix _ _ ℝ) := by
  have h0 := mu0_mem hn hl
  ext c d
  rw [Matrix.mul_apply, Matrix.smul_apply, Matrix.one_apply]
  have e : ∀ x, (pm (n + 1) a b (adj (n + 1) (n - 1)) * Eb E n lam (mu0 lam)) x d =
      ∑ s : Fin (irrOf lam).d, evalN lam (enc (adj (n + 1) (n - 1))) s 0 * E lam d s x := by
    intro x
    rw [Matrix.mul_apply]
    have := hE.equi hl d.2 (offOf_lt hn hl h0) (adj (n + 1) (n - 1)) x
    rw [mu0_off h0] at this
    rw [← this]
    unfold Eb
    rw [mu0_off h0]
  simp only [e, Finset.mul_sum, Matrix.transpose_apply, Eb]
  rw [Finset.sum_comm]
  have e2 : ∀ s : Fin (irrOf lam).d, ∑ x, E lam c (offOf (subs lam) mu) x * (evalN lam (enc (adj (n + 1) (n - 1))) s 0 * E lam d s x) =
      evalN lam (enc (adj (n + 1) (n - 1))) s 0 * if lam = lam ∧ (c : Nat) = d ∧ offOf (subs lam) mu = s then 1 else 0 := by
    intro s
    rw [← hE.orth hl hl c.2 (offOf_lt hn hl hmu) d.2 s.2, Finset.mul_sum]
    exact Finset.sum_congr rfl fun x _ => by ring
  rw [Finset.sum_congr rfl fun s _ => e2 s, Finset.sum_eq_single (⟨offOf (subs lam) mu, offOf_lt hn hl hmu⟩ : Fin (irrOf lam).d)]
  · unfold Am
    rw [smul_eq_mul]
    congr 1
    exact if_congr ⟨fun h => Fin.ext h.2.1, fun h => ⟨rfl, congrArg _ h, rfl⟩⟩ rfl rfl
  · intro s _ hs
    rw [if_neg, mul_zero]
    rintro ⟨-, -, h'⟩
    exact hs (Fin.ext h'.symm)
  · intro h'; exact absurd (Finset.mem_univ _) h'

theorem Bm_eq (h : Inv n Φ) (hE : Ref (n + 1) a b E) (he : EigOk eig) (hn : 1 ≤ n) (ha : IsPartition (n + 1) a) (hb : IsPartition (n + 1) b)
    {lam mu : List Nat} (hl : IsPartition (n + 1) lam) (hmu : mu ∈ subs lam) :
    Bm eig n Φ a b lam mu = Am n lam mu • ((Om E eig n Φ lam mu)ᵀ * Om E eig n Φ lam (mu0 lam)) := by
  unfold Bm Tm
  rw [VS_eq h hE he hn ha hb hl (mu0_mem hn hl), ← Matrix.mul_assoc (Sm eig n Φ a b lam mu)ᵀ, ← Matrix.transpose_mul,
    VS_eq h hE he hn ha hb hl hmu, Matrix.transpose_mul, Matrix.mul_assoc, ← Matrix.mul_assoc (pm _ _ _ _), ← Matrix.mul_assoc (Eb E n lam mu)ᵀ,
    Eb_pm hE hn hl hmu, Matrix.smul_mul, Matrix.one_mul, Matrix.mul_smul]

theorem Gm_orth (h : Inv n Φ) (he : EigOk eig) (hn : 1 ≤ n) (ha : IsPartition (n + 1) a) (hb : IsPartition (n + 1) b)
    {lam mu : List Nat} (hl : IsPartition (n + 1) lam) (hmu : mu ∈ subs lam) : (Gm eig n Φ a b lam mu)ᵀ * Gm eig n Φ a b lam mu = 1 := by
  obtain ⟨E, hE⟩ := exists_Ref (by omega) ha hb
  unfold Gm
  split_ifs with h1 h2
  · simp
  · have hA : Am n lam mu ≠ 0 := by
      intro h0
      rw [h0, abs_zero] at h2
      norm_num at h2
    have e : (1 / Am n lam mu) • (Bm eig n Φ a b lam mu)ᵀ = ((Om E eig n Φ lam mu)ᵀ * Om E eig n Φ lam (mu0 lam))ᵀ := by
      rw [Bm_eq h hE he hn ha hb hl hmu, Matrix.transpose_smul, smul_smul, one_div_mul_cancel hA, one_smul]
    rw [e, Matrix.transpose_transpose, Matrix.transpose_mul, Matrix.transpose_transpose, Matrix.mul_assoc, ← Matrix.mul_assoc _ _ (Om E eig n Φ lam mu),
      (Om_orth h hE he hn ha hb hl (mu0_mem hn hl)).2, Matrix.one_mul, (Om_orth h hE he hn ha hb hl hmu).1]
  · simp

theorem Fm_orth (h : Inv n Φ) (he : EigOk eig) (hn : 1 ≤ n) (ha : IsPartition (n + 1) a) (hb : IsPartition (n + 1) b)
    {lam mu : List Nat} (hl : IsPartition (n + 1) lam) (hmu : mu ∈ subs lam) : (Fm eig n Φ a b lam mu)ᵀ * Fm eig n Φ a b lam mu = 1 := by
  unfold Fm
  rw [Matrix.transpose_mul, Matrix.mul_assoc, ← Matrix.mul_assoc _ (Sm eig n Φ a b lam mu), Sm_orth h he hn ha hb hl hmu, Matrix.one_mul,
    Gm_orth h he hn ha hb hl hmu]

theorem Fm_orth_ne (h : Inv n Φ) (he : EigOk eig) (hn : 1 ≤ n) (ha : IsPartition (n + 1) a) (hb : IsPartition (n + 1) b)
    {lam lam' mu : List Nat} (hl : IsPartition (n + 1) lam) (hmu : mu ∈ subs lam) (hl' : IsPartition (n + 1) lam') (hmu' : mu ∈ subs lam')
    (hne : lam ≠ lam') : (Fm eig n Φ a b lam mu)ᵀ * Fm eig n Φ a b lam' mu = 0 := by
  unfold Fm
  rw [Matrix.transpose_mul, Matrix.mul_assoc, ← Matrix.mul_assoc _ (Sm eig n Φ a b lam' mu), Sm_orth_ne h he hn ha hb hl hmu hl' hmu' hne,
    Matrix.zero_mul, Matrix.mul_zero]

/-- the eigenvectors are weight vectors for the last content -/
theorem jm_VS (h : Inv n Φ) (he : EigOk eig) (hn : 1 ≤ n) (ha : IsPartition (n + 1) a) (hb : IsPartition (n + 1) b)
    {lam mu : List Nat} (hl : IsPartition (n + 1) lam) (hmu : mu ∈ subs lam) :
    jmX (n + 1) a b n * (Vm n Φ a b mu * Fm eig n Φ a b lam mu) = (topc lam mu : ℝ) • (Vm n Φ a b mu * Fm eig n Φ a b lam mu) := by
  obtain ⟨E, hE⟩ := exists_Ref (by omega) ha hb
  have : jmX (n + 1) a b n * Eb E n lam mu = (topc lam mu : ℝ) • Eb E n lam mu := by
    ext x c
    rw [Matrix.mul_apply]
    refine (hE.weight (by omega) hl c.2 (offOf_lt hn hl hmu) (by omega) x).trans ?_
    have : ct (n + 1) lam (offOf (subs lam) mu) n = topc lam mu := ct_top hn hl hmu (t := 0) (dimOf_pos hn (sub_part hl mu hmu))
    rw [this]
    rfl
  unfold Fm
  rw [← Matrix.mul_assoc (Vm n Φ a b mu), VS_eq h hE he hn ha hb hl hmu, Matrix.mul_assoc (Eb E n lam mu), ← Matrix.mul_assoc (jmX _ _ _ _), this,
    Matrix.smul_mul]

theorem nextB_lt {lam mu : List Nat} {c : Nat} (hc : c < kronN (n + 1) a b lam) (t i j : Nat) :
    nextB eig n Φ a b lam mu t c i j = ∑ k : Fin (kmul n a b mu), psi n Φ a b mu t k i j * Fm eig n Φ a b lam mu k ⟨c, hc⟩ := by
  unfold nextB
  rw [dif_pos hc]

end

/-- one step of the recursion -/
theorem Inv.next {n : Nat} {Φ : Coef} {eig : Eig} (h : Inv n Φ) (he : EigOk eig) (hn : 1 ≤ n) : Inv (n + 1) (nextPhi eig n Φ) := by
  constructor
  · intro a b p q ha hb hp hq c d r s hc hd hr hs
    obtain ⟨mu, hmu, t, ht, rfl⟩ := exists_block hn hp hr
    obtain ⟨nu, hnu, u, hu, rfl⟩ := exists_block hn hq hs
    simp only [nextPhi_off hmu ht, nextPhi_off hnu hu, nextB_lt hc, nextB_lt hd]
    have e : ∑ x : XI a b, (∑ k : Fin (kmul n a b mu), psi n Φ a b mu t k (fstIx x) (sndIx x) * Fm eig n Φ a b p mu k ⟨c, hc⟩) *
        (∑ l : Fin (kmul n a b nu), psi n Φ a b nu u l (fstIx x) (sndIx x) * Fm eig n Φ a b q nu l ⟨d, hd⟩) =
        ∑ k : Fin (kmul n a b mu), ∑ l : Fin (kmul n a b nu), Fm eig n Φ a b p mu k ⟨c, hc⟩ * Fm eig n Φ a b q nu l ⟨d, hd⟩ *
          if mu = nu ∧ (k : Nat) = l ∧ t = u then 1 else 0 := by
      simp only [Finset.sum_mul_sum]
      rw [Finset.sum_comm]
      refine Finset.sum_congr rfl fun k _ => ?_
      rw [Finset.sum_comm]
      refine Finset.sum_congr rfl fun l _ => ?_
      rw [← psi_orth h hn ha hb (sub_part hp mu hmu) (sub_part hq nu hnu) ht hu k.2 l.2, Finset.mul_sum]
      exact Finset.sum_congr rfl fun x _ => by ring
    rw [e]
    by_cases hm : mu = nu ∧ t = u
    · obtain ⟨rfl, rfl⟩ := hm
      have e2 : ∀ k : Fin (kmul n a b mu), (∑ l : Fin (kmul n a b mu), Fm eig n Φ a b p mu k ⟨c, hc⟩ * Fm eig n Φ a b q mu l ⟨d, hd⟩ *
          if mu = mu ∧ (k : Nat) = l ∧ t = t then (1 : ℝ) else 0) = Fm eig n Φ a b p mu k ⟨c, hc⟩ * Fm eig n Φ a b q mu k ⟨d, hd⟩ := by
        intro k
        rw [Finset.sum_eq_single k]
        · simp
        · intro l _ hl
          rw [if_neg, mul_zero]
          rintro ⟨-, h', -⟩
          exact hl (Fin.ext h'.symm)
        · intro h'; exact absurd (Finset.mem_univ _) h'
      rw [Finset.sum_congr rfl fun k _ => e2 k]
      by_cases hpq : p = q
      · subst hpq
        have := congrFun (congrFun (Fm_orth h he hn ha hb hp hmu) ⟨c, hc⟩) ⟨d, hd⟩
        rw [Matrix.mul_apply, Matrix.one_apply] at this
        refine this.trans (if_congr ?_ rfl rfl)
        exact ⟨fun h => ⟨rfl, congrArg Fin.val h, rfl⟩, fun h => Fin.ext h.2.1⟩
      · have := congrFun (congrFun (Fm_orth_ne h he hn ha hb hp hmu hq hnu hpq) ⟨c, hc⟩) ⟨d, hd⟩
        rw [Matrix.mul_apply] at this
        refine this.trans ?_
        rw [if_neg fun h => hpq h.1]
        rfl
    · rw [if_neg]
      · refine Finset.sum_eq_zero fun k _ => Finset.sum_eq_zero fun l _ => ?_
        rw [if_neg fun h => hm ⟨h.1, h.2.2⟩, mul_zero]
      · rintro ⟨rfl, -, h'⟩
        exact hm (block_inj hn hp hmu hnu ht hu h')
  · intro a b p ha hb hp c hc k hk x
    have h0 := mu0_mem hn hp
    have hm := sub_part hp _ h0
    have hd := dimOf_pos hn hm
    have e0 : (0 : Nat) = offOf (subs p) (mu0 p) + 0 := by rw [mu0_off h0]
    have e : ∀ i j, nextPhi eig n Φ a b p 0 c i j = nextB eig n Φ a b p (mu0 p) 0 c i j := by
      intro i j
      conv_lhs => rw [e0]
      exact nextPhi_off h0 hd c i j
    simp only [e, nextB_lt hc]
    rcases Nat.lt_or_ge k n with hk' | hk'
    · have ec : ct (n + 1) p 0 k = ct n (mu0 p) 0 k := by
        conv_lhs => rw [e0]
        exact ct_block hn hp h0 hd hk'
      rw [ec]
      simp only [Finset.mul_sum]
      rw [Finset.sum_comm]
      refine Finset.sum_congr rfl fun l _ => ?_
      have := psi_wt h hn ha hb hm l.2 hk' x
      rw [← mul_assoc, ← this, Finset.sum_mul]
      exact Finset.sum_congr rfl fun y _ => by ring
    · have hkn : k = n := by omega
      subst hkn
      have ec : ct (k + 1) p 0 k = topc p (mu0 p) := by
        conv_lhs => rw [e0]
        exact ct_top hn hp h0 hd
      rw [ec]
      have := congrFun (congrFun (jm_VS h he hn ha hb hp h0) x) ⟨c, hc⟩
      rw [Matrix.mul_apply, Matrix.smul_apply, smul_eq_mul] at this
      exact this

end Snob
