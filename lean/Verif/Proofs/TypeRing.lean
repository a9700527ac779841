import Verif.Props.CG
import Verif.Props.SnType
import Verif.Proofs.Branch

/-! Types as functions on the partitions: products, restriction and induction -/

namespace Snob.TypeRing

open Snob Snob.IP
open scoped Nat

variable {n : Nat}

/-- the multiplicities of a tensor product -/
noncomputable def conv (f g : Pt n → ℝ) (r : Pt n) : ℝ := ∑ p, ∑ q, f p * g q * (kronN n p.1 q.1 r.1 : ℝ)

/-- the character -/
noncomputable def char (f : Pt n → ℝ) (σ : Equiv.Perm (Fin n)) : ℝ := ∑ p, f p * chi p.2 σ

theorem char_inj {f g : Pt n → ℝ} (h : ∀ σ, char f σ = char g σ) : f = g := by
  classical
  have hf : (n ! : ℝ) ≠ 0 := by exact_mod_cast (Nat.factorial_pos n).ne'
  have key : ∀ (f : Pt n → ℝ) (r : Pt n), ∑ σ, char f σ * chi r.2 σ = f r * n ! := by
    intro f r
    have e : ∀ σ, char f σ * chi r.2 σ = ∑ p, f p * (chi p.2 σ * chi r.2 σ) := fun σ => by
      unfold char
      rw [Finset.sum_mul]
      exact Finset.sum_congr rfl fun p _ => by ring
    rw [Finset.sum_congr rfl fun σ _ => e σ, Finset.sum_comm]
    rw [Finset.sum_congr rfl (g := fun p => if p = r then f r * (n ! : ℝ) else 0), Finset.sum_ite_eq', if_pos (Finset.mem_univ _)]
    intro p _
    rw [← Finset.mul_sum, chi_orthogonality]
    by_cases hpr : p = r
    · rw [if_pos hpr, if_pos (congrArg Subtype.val hpr), hpr]
    · rw [if_neg hpr, if_neg fun h => hpr (Subtype.ext h), mul_zero]
  funext r
  have h1 := key f r
  rw [Finset.sum_congr rfl fun σ _ => by rw [h σ], key g r] at h1
  exact (mul_right_cancel₀ hf h1).symm

theorem char_conv (f g : Pt n → ℝ) (σ : Equiv.Perm (Fin n)) : char (conv f g) σ = char f σ * char g σ := by
  unfold char conv
  rw [Finset.sum_mul_sum]
  have e : ∀ r : Pt n, (∑ p, ∑ q, f p * g q * (kronN n p.1 q.1 r.1 : ℝ)) * chi r.2 σ =
      ∑ p, ∑ q, f p * g q * ((kronN n p.1 q.1 r.1 : ℝ) * chi r.2 σ) := fun r => by
    rw [Finset.sum_mul]
    refine Finset.sum_congr rfl fun p _ => ?_
    rw [Finset.sum_mul]
    exact Finset.sum_congr rfl fun q _ => by ring
  rw [Finset.sum_congr rfl fun r _ => e r, Finset.sum_comm]
  refine Finset.sum_congr rfl fun p _ => ?_
  rw [Finset.sum_comm]
  refine Finset.sum_congr rfl fun q _ => ?_
  rw [← Finset.mul_sum, sum_kron_chi p.2 q.2]
  ring

theorem conv_comm (f g : Pt n → ℝ) : conv f g = conv g f := char_inj fun σ => by rw [char_conv, char_conv, mul_comm]
theorem conv_assoc (f g h : Pt n → ℝ) : conv (conv f g) h = conv f (conv g h) := char_inj fun σ => by simp only [char_conv, mul_assoc]

theorem char_add (f g : Pt n → ℝ) (m : ℝ) (σ : Equiv.Perm (Fin n)) : char (fun r => f r + m * g r) σ = char f σ + m * char g σ := by
  unfold char
  rw [Finset.mul_sum, ← Finset.sum_add_distrib]
  exact Finset.sum_congr rfl fun p _ => by ring

theorem conv_add (f g h : Pt n → ℝ) (m : ℝ) : conv (fun r => f r + m * g r) h = fun r => conv f h r + m * conv g h r :=
  char_inj fun σ => by rw [char_add, char_conv, char_conv, char_conv, char_add]; ring

theorem conv_nonneg {f g : Pt n → ℝ} (hf : ∀ r, 0 ≤ f r) (hg : ∀ r, 0 ≤ g r) (r : Pt n) : 0 ≤ conv f g r :=
  Finset.sum_nonneg fun p _ => Finset.sum_nonneg fun q _ => mul_nonneg (mul_nonneg (hf p) (hg q)) (Nat.cast_nonneg _)

theorem conv_pos {f g : Pt n → ℝ} (hf : ∀ r, 0 ≤ f r) (hg : ∀ r, 0 ≤ g r) (r : Pt n) :
    0 < conv f g r ↔ ∃ p q, 0 < f p ∧ 0 < g q ∧ 0 < kronN n p.1 q.1 r.1 := by
  have h0 : ∀ p q : Pt n, 0 ≤ f p * g q * (kronN n p.1 q.1 r.1 : ℝ) := fun p q => mul_nonneg (mul_nonneg (hf p) (hg q)) (Nat.cast_nonneg _)
  unfold conv
  rw [Finset.sum_pos_iff_of_nonneg fun p _ => Finset.sum_nonneg fun q _ => h0 p q]
  constructor
  · rintro ⟨p, -, hp⟩
    rw [Finset.sum_pos_iff_of_nonneg fun q _ => h0 p q] at hp
    obtain ⟨q, -, hq⟩ := hp
    have h1 := (hf p).lt_of_ne' fun h => by rw [h] at hq; simp at hq
    have h2 := (hg q).lt_of_ne' fun h => by rw [h] at hq; simp at hq
    exact ⟨p, q, h1, h2, Nat.pos_of_ne_zero fun h => by rw [h] at hq; simp at hq⟩
  · rintro ⟨p, q, h1, h2, h3⟩
    refine ⟨p, Finset.mem_univ _, ?_⟩
    rw [Finset.sum_pos_iff_of_nonneg fun q _ => h0 p q]
    exact ⟨q, Finset.mem_univ _, mul_pos (mul_pos h1 h2) (by exact_mod_cast h3)⟩

/-! ## Restriction and induction -/

open Classical in
noncomputable def res (f : Pt (n + 1) → ℝ) (q : Pt n) : ℝ := ∑ p, if AddsBox q.1 p.1 then f p else 0

open Classical in
noncomputable def ind (f : Pt n → ℝ) (p : Pt (n + 1)) : ℝ := ∑ q, if AddsBox q.1 p.1 then f q else 0

theorem char_res (hn : 1 ≤ n) (f : Pt (n + 1) → ℝ) (σ : Equiv.Perm (Fin n)) : char (res f) σ = char f (extend σ) := by
  classical
  unfold char res
  simp only [chi_branch hn, Finset.mul_sum, Finset.sum_mul]
  rw [Finset.sum_comm]
  refine Finset.sum_congr rfl fun p _ => Finset.sum_congr rfl fun q _ => ?_
  split_ifs <;> simp

theorem res_conv (hn : 1 ≤ n) (f g : Pt (n + 1) → ℝ) : res (conv f g) = conv (res f) (res g) :=
  char_inj fun σ => by rw [char_conv, char_res hn, char_res hn, char_res hn, char_conv]

theorem pair_ind (f : Pt n → ℝ) (h : Pt (n + 1) → ℝ) : ∑ p, ind f p * h p = ∑ q, f q * res h q := by
  classical
  unfold ind res
  simp only [Finset.mul_sum, Finset.sum_mul]
  rw [Finset.sum_comm]
  refine Finset.sum_congr rfl fun p _ => Finset.sum_congr rfl fun q _ => ?_
  split_ifs <;> simp

theorem pair_conv (f g h : Pt n → ℝ) : ∑ r, conv f g r * h r = ∑ r, g r * conv f h r := by
  unfold conv
  simp only [Finset.mul_sum, Finset.sum_mul]
  rw [Finset.sum_comm]
  rw [Finset.sum_comm (s := (Finset.univ : Finset (Pt n))) (t := Finset.univ) (f := fun r p => ∑ q, g r * (f p * h q * (kronN n p.1 q.1 r.1 : ℝ)))]
  refine Finset.sum_congr rfl fun p _ => ?_
  rw [Finset.sum_comm]
  refine Finset.sum_congr rfl fun q _ => Finset.sum_congr rfl fun r _ => ?_
  rw [kronN_swap23 n p.1 q.1 r.1]; ring

/-- the projection formula -/
theorem ind_conv (hn : 1 ≤ n) (f : Pt (n + 1) → ℝ) (g : Pt n → ℝ) : ind (conv (res f) g) = conv f (ind g) := by
  classical
  have key : ∀ h : Pt (n + 1) → ℝ, ∑ p, ind (conv (res f) g) p * h p = ∑ p, conv f (ind g) p * h p := fun h => by
    rw [pair_ind, pair_conv, pair_conv, pair_ind, res_conv hn]
  funext r
  have := key fun p => if p = r then 1 else 0
  simpa using this

theorem res_pos {f : Pt (n + 1) → ℝ} (hf : ∀ r, 0 ≤ f r) (q : Pt n) : 0 < res f q ↔ ∃ p, 0 < f p ∧ AddsBox q.1 p.1 := by
  classical
  unfold res
  rw [Finset.sum_pos_iff_of_nonneg fun p _ => by split_ifs <;> [exact hf p; exact le_refl _]]
  constructor
  · rintro ⟨p, -, hp⟩
    split_ifs at hp with h
    · exact ⟨p, hp, h⟩
    · exact absurd hp (lt_irrefl _)
  · rintro ⟨p, hp, h⟩
    exact ⟨p, Finset.mem_univ _, by rwa [if_pos h]⟩

theorem ind_pos {f : Pt n → ℝ} (hf : ∀ r, 0 ≤ f r) (p : Pt (n + 1)) : 0 < ind f p ↔ ∃ q, 0 < f q ∧ AddsBox q.1 p.1 := by
  classical
  unfold ind
  rw [Finset.sum_pos_iff_of_nonneg fun p _ => by split_ifs <;> [exact hf p; exact le_refl _]]
  constructor
  · rintro ⟨p, -, hp⟩
    split_ifs at hp with h
    · exact ⟨p, hp, h⟩
    · exact absurd hp (lt_irrefl _)
  · rintro ⟨p, hp, h⟩
    exact ⟨p, Finset.mem_univ _, by rwa [if_pos h]⟩

theorem res_nonneg {f : Pt (n + 1) → ℝ} (hf : ∀ r, 0 ≤ f r) (q : Pt n) : 0 ≤ res f q := by
  classical
  exact Finset.sum_nonneg fun p _ => by split_ifs <;> [exact hf p; exact le_refl _]

theorem ind_nonneg {f : Pt n → ℝ} (hf : ∀ r, 0 ≤ f r) (q : Pt (n + 1)) : 0 ≤ ind f q := by
  classical
  exact Finset.sum_nonneg fun p _ => by split_ifs <;> [exact hf p; exact le_refl _]

/-! ## Types -/

/-- the type `t` has the multiplicities `f` and lists the partitions where `F` is positive -/
structure Desc (t : SnType) (f F : Pt n → ℝ) : Prop where
  ok : TypeOk n t
  mult : ∀ r : Pt n, (mult t r.1 : ℝ) = f r
  nonneg : ∀ r, 0 ≤ F r
  mem : ∀ r : Pt n, r.1 ∈ parts t ↔ 0 < F r

theorem Desc.ext {t u : SnType} {f F : Pt n → ℝ} (ht : Desc t f F) (hu : Desc u f F) : t = u := by
  refine ht.ok.ext hu.ok (fun x => ?_) fun x => ?_
  · constructor
    · intro h
      exact (hu.mem ⟨x, ht.ok.all x h⟩).2 ((ht.mem ⟨x, ht.ok.all x h⟩).1 h)
    · intro h
      exact (ht.mem ⟨x, hu.ok.all x h⟩).2 ((hu.mem ⟨x, hu.ok.all x h⟩).1 h)
  · by_cases hx : IsPartition n x
    · have := (ht.mult ⟨x, hx⟩).trans (hu.mult ⟨x, hx⟩).symm
      exact_mod_cast this
    · rw [mult_of_not_mem fun h => hx (ht.ok.all x h), mult_of_not_mem fun h => hx (hu.ok.all x h)]

theorem exists_desc {t : SnType} (ht : TypeOk n t) : ∃ f F : Pt n → ℝ, Desc t f F := by
  classical
  refine ⟨fun r => (Snob.mult t r.1 : ℝ), fun r => if r.1 ∈ parts t then 1 else 0, ht, fun _ => rfl, fun r => ?_, fun r => ?_⟩
  · show 0 ≤ (if r.1 ∈ parts t then (1 : ℝ) else 0)
    split_ifs <;> norm_num
  · show _ ↔ 0 < (if r.1 ∈ parts t then (1 : ℝ) else 0)
    split_ifs with h
    · simp [h]
    · simp [h]

theorem Desc.sum {t : SnType} {f F : Pt n → ℝ} (h : Desc t f F) (d : List Nat → Int) :
    (typeSum d t : ℝ) = ∑ r, f r * (d r.1 : ℝ) := by
  have := typeSum_real h.ok fun p => (d p : ℝ)
  rw [Finset.sum_congr rfl fun r _ => by rw [h.mult r]] at this
  rw [this]
  unfold typeSum
  rw [Int.cast_list_sum, List.map_map]
  congr 1
  exact List.map_congr_left fun e _ => by simp

/-- a call returns the value after any history -/
def Always (c : CGCall) (v : CGVal) : Prop :=
  ∀ cs : List CGCall, (∀ x ∈ cs, x.Valid) → ∃ s s', CGState.empty.run cs = some s ∧ s.exec c = some (s', v)

theorem desc_prod (hn : 1 ≤ n) {t u : SnType} {f F g G : Pt n → ℝ} (ht : Desc t f F) (hu : Desc u g G) :
    ∃ R, Always (.productTypes t u) (.type R) ∧ Desc R (conv f g) (conv F G) := by
  have key : ∀ s : CGState, CGState.Ok s → ∃ s' R, s.productTypes t u = some (s', R) ∧ Desc R (conv f g) (conv F G) := fun s hs => by
    obtain ⟨s', R, e, _, h1, h2, h3⟩ := hs.productTypes hn ht.ok hu.ok
    refine ⟨s', R, e, h1, fun r => ?_, conv_nonneg ht.nonneg hu.nonneg, fun r => ?_⟩
    · rw [h3 r.1 r.2, ht.sum]
      unfold conv
      refine Finset.sum_congr rfl fun p _ => ?_
      rw [hu.sum, Finset.mul_sum]
      refine Finset.sum_congr rfl fun q _ => ?_
      push_cast; ring
    · rw [h2, conv_pos ht.nonneg hu.nonneg]
      constructor
      · rintro ⟨-, p, hp, q, hq, hk⟩
        exact ⟨⟨p, ht.ok.all p hp⟩, ⟨q, hu.ok.all q hq⟩, (ht.mem _).1 hp, (hu.mem _).1 hq, hk⟩
      · rintro ⟨p, q, hp, hq, hk⟩
        exact ⟨r.2, p.1, (ht.mem _).2 hp, q.1, (hu.mem _).2 hq, hk⟩
  obtain ⟨_, R, _, hR⟩ := key _ CGState.ok_empty
  refine ⟨R, fun cs hcs => ?_, hR⟩
  obtain ⟨s, e, hs⟩ := CGState.ok_empty.run cs hcs
  obtain ⟨s', R', e', hR'⟩ := key s hs
  refine ⟨s, s', e, ?_⟩
  rw [hR.ext hR']
  simp only [CGState.exec, e', Option.bind_eq_bind, Option.bind_some]

theorem desc_down {t : SnType} {f F : Pt (n + 1) → ℝ} (ht : Desc t f F) : ∃ D, SnType.down t = some D ∧ Desc D (res f) (res F) := by
  classical
  obtain ⟨D, h1, h2, h3, h4, -⟩ := down_ok ht.ok
  refine ⟨D, h1, h2, fun q => ?_, res_nonneg ht.nonneg, fun q => ?_⟩
  · rw [h4, ht.sum]
    unfold res
    refine Finset.sum_congr rfl fun p _ => ?_
    have := mem_subs p.2 q.1
    by_cases h : AddsBox q.1 p.1
    · rw [if_pos h, if_pos (this.2 ⟨q.2, h⟩)]; simp
    · rw [if_neg h, if_neg fun h' => h (this.1 h').2]; simp
  · rw [h3, res_pos ht.nonneg]
    constructor
    · rintro ⟨p, hp, h⟩
      have hp' := ht.ok.all p hp
      exact ⟨⟨p, hp'⟩, (ht.mem _).1 hp, ((mem_subs hp' _).1 h).2⟩
    · rintro ⟨p, hp, h⟩
      exact ⟨p.1, (ht.mem _).2 hp, (mem_subs p.2 _).2 ⟨q.2, h⟩⟩

theorem desc_ind {t : SnType} {f F : Pt n → ℝ} (ht : Desc t f F) :
    ∃ I, (RepObj.ofType t).bind (fun r => (RepObj.induced r).bind RepObj.getType) = some I ∧ Desc I (ind f) (ind F) := by
  classical
  obtain ⟨D, h1, h2, h3, h4, -⟩ := induced_ok ht.ok
  refine ⟨D, ?_, h2, fun q => ?_, ind_nonneg ht.nonneg, fun q => ?_⟩
  · rw [RepBank.ofType_eq ht.ok, Option.bind_some, h1, Option.bind_some]
    exact SnType.ofList_self h2
  · rw [h4, ht.sum]
    unfold ind
    refine Finset.sum_congr rfl fun p _ => ?_
    have := mem_covers p.2 q.1
    by_cases h : AddsBox p.1 q.1
    · rw [if_pos h, if_pos (this.2 ⟨q.2, h⟩)]; simp
    · rw [if_neg h, if_neg fun h' => h (this.1 h').2]; simp
  · rw [h3, ind_pos ht.nonneg]
    constructor
    · rintro ⟨p, hp, h⟩
      have hp' := ht.ok.all p hp
      exact ⟨⟨p, hp'⟩, (ht.mem _).1 hp, ((mem_covers hp' _).1 h).2⟩
    · rintro ⟨p, hp, h⟩
      exact ⟨p.1, (ht.mem _).2 hp, (mem_covers p.2 _).2 ⟨q.2, h⟩⟩

theorem desc_add {t u : SnType} {f F g G : Pt n → ℝ} (ht : Desc t f F) (hu : Desc u g G) (m : Int) :
    ∃ R, SnType.addType t u m = some R ∧ Desc R (fun r => f r + m * g r) (fun r => F r + 1 * G r) := by
  obtain ⟨R, h1, h2, h3, h4, -⟩ := SnType.addType_ok m ht.ok hu.ok
  refine ⟨R, h1, h2, fun r => ?_, fun r => ?_, fun r => ?_⟩
  · rw [h4, ← ht.mult, ← hu.mult]; push_cast; ring
  · have := ht.nonneg r; have := hu.nonneg r; linarith
  · rw [h3, ht.mem, hu.mem]
    have := ht.nonneg r; have := hu.nonneg r
    constructor
    · rintro (h | h) <;> linarith
    · intro h
      by_contra hc
      push Not at hc
      linarith [hc.1, hc.2]

end Snob.TypeRing
