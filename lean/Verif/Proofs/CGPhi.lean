import Verif.Model.CGVec
import Verif.Proofs.CGSplit
import Verif.Proofs.CGEig

/-! # The coefficients of the product: products of restrictions -/

namespace Snob

open IP Matrix

/-- coefficients of products: partitions `a`, `b` and `p`, row and column in the part of `p`, rows of the factors -/
abbrev Coef := List Nat → List Nat → List Nat → Nat → Nat → Nat → Nat → ℝ

/-- the pair of constituents to which a column belongs, and its number there -/
noncomputable def loc (n : Nat) : List (List Nat × List Nat) → List Nat → Nat → (List Nat × List Nat) × Nat
  | [], _, k => (([], []), k)
  | e :: L, mu, k => if k < kronN n e.1 e.2 mu then (e, k) else loc n L mu (k - kronN n e.1 e.2 mu)

theorem loc_mem {n : Nat} {L : List (List Nat × List Nat)} {mu : List Nat} {k : Nat} (h : k < tot n L mu) :
    (loc n L mu k).1 ∈ L ∧ (loc n L mu k).2 < kronN n (loc n L mu k).1.1 (loc n L mu k).1.2 mu := by
  induction L generalizing k with
  | nil => simp [tot] at h
  | cons e L ih =>
    unfold loc
    by_cases hk : k < kronN n e.1 e.2 mu
    · rw [if_pos hk]; exact ⟨by simp, hk⟩
    · rw [if_neg hk]
      have := ih (k := k - kronN n e.1 e.2 mu) (by unfold tot at h ⊢; rw [List.map_cons, List.sum_cons] at h; omega)
      exact ⟨List.mem_cons_of_mem _ this.1, this.2⟩

theorem loc_inj {n : Nat} {L : List (List Nat × List Nat)} (hL : L.Nodup) {mu : List Nat} {k l : Nat} (hk : k < tot n L mu)
    (hl : l < tot n L mu) (h : loc n L mu k = loc n L mu l) : k = l := by
  induction L generalizing k l with
  | nil => simp [tot] at hk
  | cons e L ih =>
    obtain ⟨he, hL'⟩ := List.nodup_cons.1 hL
    have hr : ∀ {k}, k < tot n (e :: L) mu → ¬ k < kronN n e.1 e.2 mu → k - kronN n e.1 e.2 mu < tot n L mu := by
      intro k hk h'
      unfold tot at hk ⊢; rw [List.map_cons, List.sum_cons] at hk; omega
    unfold loc at h
    by_cases h1 : k < kronN n e.1 e.2 mu
    · rw [if_pos h1] at h
      by_cases h2 : l < kronN n e.1 e.2 mu
      · rw [if_pos h2] at h; exact (Prod.mk.inj h).2
      · rw [if_neg h2] at h
        have := (loc_mem (hr hl h2)).1
        rw [← h] at this
        exact absurd this he
    · rw [if_neg h1] at h
      by_cases h2 : l < kronN n e.1 e.2 mu
      · rw [if_pos h2] at h
        have := (loc_mem (hr hk h1)).1
        rw [h] at this
        exact absurd this he
      · rw [if_neg h2] at h
        have := ih hL' (hr hk h1) (hr hl h2) h
        omega

/-- the rows of the block of `mu` -/
def InBlk (S : List (List Nat)) (mu : List Nat) (i : Nat) : Prop := offOf S mu ≤ i ∧ i < offOf S mu + dimOf mu

noncomputable instance (S : List (List Nat)) (mu : List Nat) (i : Nat) : Decidable (InBlk S mu i) := by unfold InBlk; infer_instance

/-- a function of pairs of rows of the constituents as a function of pairs of rows -/
noncomputable def embP (a b : List Nat) (e : List Nat × List Nat) (f : Nat → Nat → ℝ) (i j : Nat) : ℝ :=
  if InBlk (subs a) e.1 i ∧ InBlk (subs b) e.2 j then f (i - offOf (subs a) e.1) (j - offOf (subs b) e.2) else 0

/-- the coefficients of the product of the restrictions -/
noncomputable def psi (n : Nat) (Φ : Coef) (a b mu : List Nat) (r k i j : Nat) : ℝ :=
  embP a b (loc n (sprs a b) mu k).1
    (Φ (loc n (sprs a b) mu k).1.1 (loc n (sprs a b) mu k).1.2 mu r (loc n (sprs a b) mu k).2) i j

section sums
variable {n : Nat} {a b : List Nat}

theorem sum_XI (f : Nat → Nat → ℝ) :
    ∑ x : XI a b, f (fstIx x) (sndIx x) = ∑ i ∈ Finset.range (dimOf a), ∑ j ∈ Finset.range (dimOf b), f i j := by
  rw [Finset.sum_range]
  simp only [Finset.sum_range (n := dimOf b)]
  have : ∀ x : XI a b, f (fstIx x) (sndIx x) = f ((fuseEquiv _ _ x).1 : Nat) ((fuseEquiv _ _ x).2 : Nat) := fun x => rfl
  rw [Finset.sum_congr rfl fun x _ => this x]
  rw [(fuseEquiv (irrOf a).d (irrOf b).d).sum_comp (fun y => f (y.1 : Nat) (y.2 : Nat)), Fintype.sum_prod_type]
  rfl

theorem sum_InBlk {m : Nat} (hm : 1 ≤ m) {x mu : List Nat} (hx : IsPartition (m + 1) x) (hmu : mu ∈ subs x) (f : Nat → ℝ) :
    (∑ i ∈ Finset.range (dimOf x), if InBlk (subs x) mu i then f (i - offOf (subs x) mu) else 0) = ∑ t ∈ Finset.range (dimOf mu), f t := by
  have hle := off_le (subs_nodup x) hmu
  rw [← dimOf_subs hm hx] at hle
  rw [← Finset.sum_filter]
  refine Finset.sum_bij' (fun i _ => i - offOf (subs x) mu) (fun t _ => offOf (subs x) mu + t) ?_ ?_ ?_ ?_ ?_
  · intro i hi
    have := (Finset.mem_filter.1 hi).2
    unfold InBlk at this
    rw [Finset.mem_range]; omega
  · intro t ht
    rw [Finset.mem_range] at ht
    rw [Finset.mem_filter, Finset.mem_range]
    unfold InBlk
    omega
  · intro i hi
    have := (Finset.mem_filter.1 hi).2
    unfold InBlk at this
    omega
  · intro t _; simp
  · intro i _; rfl

theorem InBlk_unique {m : Nat} (hm : 1 ≤ m) {x mu nu : List Nat} (hx : IsPartition (m + 1) x) (hmu : mu ∈ subs x) (hnu : nu ∈ subs x)
    {i : Nat} (h1 : InBlk (subs x) mu i) (h2 : InBlk (subs x) nu i) : mu = nu := by
  unfold InBlk at h1 h2
  exact (block_inj hm hx hmu hnu (s := i - offOf (subs x) mu) (t := i - offOf (subs x) nu) (by omega) (by omega) (by omega)).1

theorem InBlk_off {m : Nat} (hm : 1 ≤ m) {x mu nu : List Nat} (hx : IsPartition (m + 1) x) (hmu : mu ∈ subs x) (hnu : nu ∈ subs x)
    {t : Nat} (ht : t < dimOf nu) : InBlk (subs x) mu (offOf (subs x) nu + t) ↔ mu = nu := by
  constructor
  · intro h
    exact InBlk_unique hm hx hmu hnu h (by unfold InBlk; omega)
  · rintro rfl
    unfold InBlk; omega

/-- the sum over all pairs of an embedded function -/
theorem sum_embP (hn : 1 ≤ n) (ha : IsPartition (n + 1) a) (hb : IsPartition (n + 1) b) {e : List Nat × List Nat}
    (he : e ∈ sprs a b) (f : Nat → Nat → ℝ) : ∑ x : XI a b, embP a b e f (fstIx x) (sndIx x) = ∑ y : XI e.1 e.2, f (fstIx y) (sndIx y) := by
  obtain ⟨h1, h2⟩ := mem_sprs.1 he
  rw [sum_XI, sum_XI]
  have : ∀ i, (∑ j ∈ Finset.range (dimOf b), embP a b e f i j) =
      if InBlk (subs a) e.1 i then ∑ u ∈ Finset.range (dimOf e.2), f (i - offOf (subs a) e.1) u else 0 := by
    intro i
    unfold embP
    by_cases hi : InBlk (subs a) e.1 i
    · rw [if_pos hi, ← sum_InBlk hn hb h2]
      refine Finset.sum_congr rfl fun j _ => ?_
      by_cases hj : InBlk (subs b) e.2 j
      · rw [if_pos ⟨hi, hj⟩, if_pos hj]
      · rw [if_neg fun h => hj h.2, if_neg hj]
    · rw [if_neg hi]
      exact Finset.sum_eq_zero fun j _ => if_neg fun h => hi h.1
  rw [Finset.sum_congr rfl fun i _ => this i]
  exact sum_InBlk hn ha h1 (fun t => ∑ u ∈ Finset.range (dimOf e.2), f t u)

theorem embP_mul {e : List Nat × List Nat} (f g : Nat → Nat → ℝ) (i j : Nat) :
    embP a b e f i j * embP a b e g i j = embP a b e (fun t u => f t u * g t u) i j := by
  unfold embP
  split_ifs
  · rfl
  · simp

theorem embP_mul_ne (hn : 1 ≤ n) (ha : IsPartition (n + 1) a) (hb : IsPartition (n + 1) b) {e e' : List Nat × List Nat}
    (he : e ∈ sprs a b) (he' : e' ∈ sprs a b) (hne : e ≠ e') (f g : Nat → Nat → ℝ) (i j : Nat) :
    embP a b e f i j * embP a b e' g i j = 0 := by
  obtain ⟨h1, h2⟩ := mem_sprs.1 he
  obtain ⟨h1', h2'⟩ := mem_sprs.1 he'
  unfold embP
  by_cases c1 : InBlk (subs a) e.1 i ∧ InBlk (subs b) e.2 j
  · rw [if_neg (c := InBlk (subs a) e'.1 i ∧ _), mul_zero]
    intro c2
    exact hne (Prod.ext (InBlk_unique hn ha h1 h1' c1.1 c2.1) (InBlk_unique hn hb h2 h2' c1.2 c2.2))
  · rw [if_neg c1, zero_mul]

end sums

/-! ## Orthonormality and weights -/

/-- the coefficients are orthonormal, and those of the first row are weight vectors -/
structure Inv (n : Nat) (Φ : Coef) : Prop where
  orth : ∀ {a b p q : List Nat}, IsPartition n a → IsPartition n b → IsPartition n p → IsPartition n q → ∀ {c d r s : Nat},
    c < kronN n a b p → d < kronN n a b q → r < dimOf p → s < dimOf q →
    ∑ x : XI a b, Φ a b p r c (fstIx x) (sndIx x) * Φ a b q s d (fstIx x) (sndIx x) = if p = q ∧ c = d ∧ r = s then 1 else 0
  wt : ∀ {a b p : List Nat}, IsPartition n a → IsPartition n b → IsPartition n p → ∀ {c : Nat}, c < kronN n a b p → ∀ {k : Nat}, k < n →
    ∀ x : XI a b, ∑ y : XI a b, jmX n a b k x y * Φ a b p 0 c (fstIx y) (sndIx y) = ct n p 0 k * Φ a b p 0 c (fstIx x) (sndIx x)

section
variable {n : Nat} {a b : List Nat} {Φ : Coef}

theorem psi_orth (h : Inv n Φ) (hn : 1 ≤ n) (ha : IsPartition (n + 1) a) (hb : IsPartition (n + 1) b) {mu nu : List Nat}
    (hmu : IsPartition n mu) (hnu : IsPartition n nu) {t s k l : Nat} (ht : t < dimOf mu) (hs : s < dimOf nu)
    (hk : k < kmul n a b mu) (hl : l < kmul n a b nu) :
    ∑ x : XI a b, psi n Φ a b mu t k (fstIx x) (sndIx x) * psi n Φ a b nu s l (fstIx x) (sndIx x) =
      if mu = nu ∧ k = l ∧ t = s then 1 else 0 := by
  obtain ⟨m1, c1⟩ := loc_mem hk
  obtain ⟨m2, c2⟩ := loc_mem hl
  unfold psi
  by_cases he : (loc n (sprs a b) mu k).1 = (loc n (sprs a b) nu l).1
  · rw [← he] at c2 ⊢
    simp only [embP_mul]
    rw [sum_embP hn ha hb m1 (fun i j => Φ (loc n (sprs a b) mu k).1.1 (loc n (sprs a b) mu k).1.2 mu t (loc n (sprs a b) mu k).2 i j *
      Φ (loc n (sprs a b) mu k).1.1 (loc n (sprs a b) mu k).1.2 nu s (loc n (sprs a b) nu l).2 i j),
      h.orth (sub_part ha _ (mem_sprs.1 m1).1) (sub_part hb _ (mem_sprs.1 m1).2) hmu hnu c1 c2 ht hs]
    refine if_congr ?_ rfl rfl
    constructor
    · rintro ⟨rfl, e, rfl⟩
      exact ⟨rfl, loc_inj (sprs_nodup a b) hk hl (Prod.ext he e), rfl⟩
    · rintro ⟨rfl, rfl, rfl⟩
      exact ⟨rfl, rfl, rfl⟩
  · rw [Finset.sum_eq_zero fun x _ => embP_mul_ne hn ha hb m1 m2 he _ _ _ _, if_neg]
    rintro ⟨rfl, rfl, rfl⟩
    exact he rfl

/-- the smaller group acts on the blocks -/
theorem pm_embP (hn : 1 ≤ n) (ha : IsPartition (n + 1) a) (hb : IsPartition (n + 1) b) {e : List Nat × List Nat}
    (he : e ∈ sprs a b) (f g : Nat → Nat → ℝ) (σ : Equiv.Perm (Fin n))
    (hg : ∀ x : XI e.1 e.2, g (fstIx x) (sndIx x) = ∑ y : XI e.1 e.2, pm n e.1 e.2 σ x y * f (fstIx y) (sndIx y)) (x : XI a b) :
    ∑ y : XI a b, pm (n + 1) a b (extend σ) x y * embP a b e f (fstIx y) (sndIx y) = embP a b e g (fstIx x) (sndIx x) := by
  obtain ⟨h1, h2⟩ := mem_sprs.1 he
  have hi : (fstIx x : Nat) < dimOf a := (fstIx x).2
  have hj : (sndIx x : Nat) < dimOf b := (sndIx x).2
  obtain ⟨mu, hmu, t, ht, et⟩ := exists_block hn ha hi
  obtain ⟨nu, hnu, u, hu, eu⟩ := exists_block hn hb hj
  have e1 : ∀ y : XI a b, pm (n + 1) a b (extend σ) x y * embP a b e f (fstIx y) (sndIx y) =
      embP a b e (fun t' u' => (if mu = e.1 then evalN mu (enc σ) t t' else 0) * (if nu = e.2 then evalN nu (enc σ) u u' else 0) * f t' u')
        (fstIx y) (sndIx y) := by
    intro y
    unfold embP
    by_cases hb' : InBlk (subs a) e.1 (fstIx y) ∧ InBlk (subs b) e.2 (sndIx y)
    · rw [if_pos hb', if_pos hb']
      congr 1
      unfold pm
      obtain ⟨b1, b2⟩ := hb'
      unfold InBlk at b1 b2
      have y1 : (fstIx y : Nat) = offOf (subs a) e.1 + ((fstIx y : Nat) - offOf (subs a) e.1) := by omega
      have y2 : (sndIx y : Nat) = offOf (subs b) e.2 + ((sndIx y : Nat) - offOf (subs b) e.2) := by omega
      rw [et, eu]
      conv_lhs => rw [y1, y2]
      rw [evalN_block hn ha σ hmu h1 ht (by omega), evalN_block hn hb σ hnu h2 hu (by omega)]
    · rw [if_neg hb', if_neg hb', mul_zero]
  rw [Finset.sum_congr rfl fun y _ => e1 y, sum_embP hn ha hb he]
  unfold embP
  rw [et, eu]
  by_cases c : mu = e.1 ∧ nu = e.2
  · obtain ⟨c1, c2⟩ := c
    subst c1
    subst c2
    rw [if_pos ⟨(InBlk_off hn ha h1 h1 ht).2 rfl, (InBlk_off hn hb h2 h2 hu).2 rfl⟩, Nat.add_sub_cancel_left, Nat.add_sub_cancel_left]
    have := hg ((fuseEquiv _ _).symm (⟨t, ht⟩, ⟨u, hu⟩))
    have f1 : fstIx ((fuseEquiv (irrOf e.1).d (irrOf e.2).d).symm (⟨t, ht⟩, ⟨u, hu⟩)) = ⟨t, ht⟩ := fst_fuse _ _
    have f2 : sndIx ((fuseEquiv (irrOf e.1).d (irrOf e.2).d).symm (⟨t, ht⟩, ⟨u, hu⟩)) = ⟨u, hu⟩ := snd_fuse _ _
    unfold pm at this
    rw [f1, f2] at this
    rw [this]
    refine Finset.sum_congr rfl fun y _ => ?_
    rw [if_pos rfl, if_pos rfl]
  · rw [if_neg]
    · refine Finset.sum_eq_zero fun y _ => ?_
      by_cases c1 : mu = e.1
      · rw [if_neg (c := nu = e.2) fun c2 => c ⟨c1, c2⟩, mul_zero, zero_mul]
      · rw [if_neg c1, zero_mul, zero_mul]
    · rintro ⟨c1, c2⟩
      exact c ⟨((InBlk_off hn ha h1 hmu ht).1 c1).symm, ((InBlk_off hn hb h2 hnu hu).1 c2).symm⟩

theorem tr_extend {n i k : Nat} (hi : i < k) (hk : k < n) : tr (n + 1) i k = extend (tr n i k) := by
  rw [tr_of (by omega) (by omega), tr_of (by omega) (by omega)]
  ext j
  refine Fin.lastCases ?_ (fun j => ?_) j
  · rw [extend_last, Equiv.swap_apply_of_ne_of_ne]
    · exact fun h => by have := congrArg Fin.val h; simp at this; omega
    · exact fun h => by have := congrArg Fin.val h; simp at this; omega
  · rw [extend_castSucc]
    by_cases h1 : j = ⟨i, by omega⟩
    · subst h1
      rw [Equiv.swap_apply_left]
      have : (Fin.castSucc ⟨i, by omega⟩ : Fin (n + 1)) = ⟨i, by omega⟩ := rfl
      rw [this, Equiv.swap_apply_left]
      rfl
    · by_cases h2 : j = ⟨k, hk⟩
      · subst h2
        rw [Equiv.swap_apply_right]
        have : (Fin.castSucc ⟨k, hk⟩ : Fin (n + 1)) = ⟨k, by omega⟩ := rfl
        rw [this, Equiv.swap_apply_right]
        rfl
      · rw [Equiv.swap_apply_of_ne_of_ne h1 h2, Equiv.swap_apply_of_ne_of_ne]
        · exact fun h => h1 (Fin.ext (by have := congrArg Fin.val h; simpa using this))
        · exact fun h => h2 (Fin.ext (by have := congrArg Fin.val h; simpa using this))

theorem jmX_embP (hn : 1 ≤ n) (ha : IsPartition (n + 1) a) (hb : IsPartition (n + 1) b) {e : List Nat × List Nat}
    (he : e ∈ sprs a b) (f : Nat → Nat → ℝ) {k : Nat} (hk : k < n) (w : ℝ)
    (hf : ∀ x : XI e.1 e.2, ∑ y : XI e.1 e.2, jmX n e.1 e.2 k x y * f (fstIx y) (sndIx y) = w * f (fstIx x) (sndIx x)) (x : XI a b) :
    ∑ y : XI a b, jmX (n + 1) a b k x y * embP a b e f (fstIx y) (sndIx y) = w * embP a b e f (fstIx x) (sndIx x) := by
  have key : ∀ i ∈ Finset.range k, ∑ y : XI a b, pm (n + 1) a b (tr (n + 1) i k) x y * embP a b e f (fstIx y) (sndIx y) =
      embP a b e (fun t u => if h : t < (irrOf e.1).d ∧ u < (irrOf e.2).d then
        ∑ y : XI e.1 e.2, pm n e.1 e.2 (tr n i k) (fuseIx ⟨t, h.1⟩ ⟨u, h.2⟩) y * f (fstIx y) (sndIx y) else 0) (fstIx x) (sndIx x) := by
    intro i hi
    rw [tr_extend (Finset.mem_range.1 hi) hk]
    refine pm_embP hn ha hb he f _ _ (fun z => ?_) x
    rw [dif_pos ⟨(fstIx z).2, (sndIx z).2⟩]
    have : fuseIx (⟨fstIx z, (fstIx z).2⟩ : Fin (irrOf e.1).d) ⟨sndIx z, (sndIx z).2⟩ = z := fuse_fst_snd z
    rw [this]
  unfold jmX
  simp only [Matrix.sum_apply, Finset.sum_mul]
  rw [Finset.sum_comm, Finset.sum_congr rfl key]
  obtain ⟨h1, h2⟩ := mem_sprs.1 he
  unfold embP
  by_cases hB : InBlk (subs a) e.1 (fstIx x) ∧ InBlk (subs b) e.2 (sndIx x)
  · simp only [if_pos hB]
    obtain ⟨b1, b2⟩ := hB
    unfold InBlk at b1 b2
    have c1 : (fstIx x : Nat) - offOf (subs a) e.1 < (irrOf e.1).d := by unfold dimOf at b1; omega
    have c2 : (sndIx x : Nat) - offOf (subs b) e.2 < (irrOf e.2).d := by unfold dimOf at b2; omega
    simp only [dif_pos (And.intro c1 c2)]
    have := hf (fuseIx ⟨_, c1⟩ ⟨_, c2⟩)
    rw [fst_fuse, snd_fuse] at this
    rw [← this]
    unfold jmX
    simp only [Matrix.sum_apply, Finset.sum_mul]
    rw [Finset.sum_comm]
  · simp only [if_neg hB]
    simp

theorem psi_wt (h : Inv n Φ) (hn : 1 ≤ n) (ha : IsPartition (n + 1) a) (hb : IsPartition (n + 1) b) {mu : List Nat}
    (hmu : IsPartition n mu) {k : Nat} (hk : k < kmul n a b mu) {l : Nat} (hl : l < n) (x : XI a b) :
    ∑ y : XI a b, jmX (n + 1) a b l x y * psi n Φ a b mu 0 k (fstIx y) (sndIx y) = ct n mu 0 l * psi n Φ a b mu 0 k (fstIx x) (sndIx x) := by
  obtain ⟨m1, c1⟩ := loc_mem hk
  unfold psi
  exact jmX_embP hn ha hb m1 _ hl _ (h.wt (sub_part ha _ (mem_sprs.1 m1).1) (sub_part hb _ (mem_sprs.1 m1).2) hmu c1 hl) x

end

end Snob
