import Verif.Proofs.CGRow

/-! # Multiplicities and restriction -/

namespace Snob

open IP Matrix
open scoped Nat

/-- a sum over the rows, block by block -/
theorem sum_blocks {n : Nat} (hn : 1 ≤ n) {x : List Nat} (hx : IsPartition (n + 1) x) (f : Nat → ℝ) :
    ∑ r ∈ Finset.range (dimOf x), f r = ((subs x).map fun mu => ∑ t ∈ Finset.range (dimOf mu), f (offOf (subs x) mu + t)).sum := by
  have key : ∀ (S1 S2 : List (List Nat)), (S1 ++ S2).Nodup →
      (S2.map fun mu => ∑ t ∈ Finset.range (dimOf mu), f (offOf (S1 ++ S2) mu + t)).sum =
        ∑ t ∈ Finset.range (S2.map dimOf).sum, f ((S1.map dimOf).sum + t) := by
    intro S1 S2
    induction S2 generalizing S1 with
    | nil => intro _; simp
    | cons mu S2 ih =>
      intro hnd
      have hmu : mu ∉ S1 := fun h => (List.nodup_append.1 hnd).2.2 mu h mu (by simp) rfl
      have e : S1 ++ mu :: S2 = (S1 ++ [mu]) ++ S2 := by simp
      have := ih (S1 ++ [mu]) (by rwa [← e])
      rw [List.map_cons, List.sum_cons, List.map_cons, List.sum_cons, Finset.sum_range_add, offOf_split hmu, e, this]
      congr 1
      refine Finset.sum_congr rfl fun t _ => ?_
      congr 1
      simp
      omega
  have := key [] (subs x) (by simpa using subs_nodup x)
  simp only [List.nil_append, List.map_nil, List.sum_nil, Nat.zero_add] at this
  rw [this, dimOf_subs hn hx]

/-- the character -/
noncomputable def chiN (n : Nat) (p : List Nat) (σ : Equiv.Perm (Fin n)) : ℝ := ∑ i ∈ Finset.range (dimOf p), evalN p (enc σ) i i

theorem chiN_eq {n : Nat} (hn : 1 ≤ n) {p : List Nat} (hp : IsPartition n p) (σ : Equiv.Perm (Fin n)) : chiN n p σ = chi hp σ := by
  unfold chiN chi Matrix.trace
  rw [Finset.sum_range, ← (eqvR hn hp).sum_comp]
  exact Finset.sum_congr rfl fun i _ => evalN_rho hn hp σ i i

theorem chiN_extend {n : Nat} (hn : 1 ≤ n) {x : List Nat} (hx : IsPartition (n + 1) x) (σ : Equiv.Perm (Fin n)) :
    chiN (n + 1) x (extend σ) = ((subs x).map fun mu => chiN n mu σ).sum := by
  unfold chiN
  rw [sum_blocks hn hx]
  congr 1
  refine List.map_congr_left fun mu hmu => ?_
  refine Finset.sum_congr rfl fun t ht => ?_
  have := Finset.mem_range.1 ht
  rw [evalN_block hn hx σ hmu hmu this this, if_pos rfl]

/-- the pairs of constituents of the restrictions -/
def sprs (a b : List Nat) : List (List Nat × List Nat) := (subs a).flatMap fun x => (subs b).map fun y => (x, y)

theorem mem_sprs {a b : List Nat} {e : List Nat × List Nat} : e ∈ sprs a b ↔ e.1 ∈ subs a ∧ e.2 ∈ subs b := by
  unfold sprs
  simp only [List.mem_flatMap, List.mem_map]
  constructor
  · rintro ⟨x, hx, y, hy, rfl⟩; exact ⟨hx, hy⟩
  · rintro ⟨h1, h2⟩; exact ⟨e.1, h1, e.2, h2, rfl⟩

theorem sprs_nodup (a b : List Nat) : (sprs a b).Nodup := by
  unfold sprs
  rw [List.nodup_flatMap]
  refine ⟨fun x _ => (subs_nodup b).map fun y y' h => (Prod.mk.inj h).2, ?_⟩
  refine (subs_nodup a).imp fun {x x'} h => ?_
  intro z hz hz'
  rw [List.mem_map] at hz hz'
  obtain ⟨_, _, rfl⟩ := hz
  obtain ⟨_, _, e⟩ := hz'
  exact h (congrArg Prod.fst e).symm

/-- the multiplicity of `mu` in the product of the pairs -/
noncomputable def tot (n : Nat) (L : List (List Nat × List Nat)) (mu : List Nat) : Nat := (L.map fun e => kronN n e.1 e.2 mu).sum

/-- the multiplicity of `mu` in the product of the restrictions -/
noncomputable def kmul (n : Nat) (a b mu : List Nat) : Nat := tot n (sprs a b) mu

theorem sum_sprs (a b : List Nat) (f g : List Nat → ℝ) :
    ((sprs a b).map fun e => f e.1 * g e.2).sum = ((subs a).map f).sum * ((subs b).map g).sum := by
  unfold sprs
  induction subs a with
  | nil => simp
  | cons x S ih =>
    rw [List.flatMap_cons, List.map_append, List.sum_append, ih, List.map_cons, List.sum_cons, add_mul, List.map_map]
    congr 1
    rw [← List.sum_map_mul_left]
    rfl

/-- the multiplicity in the product of the restrictions and in the restriction of the product -/
theorem kmul_eq {n : Nat} (hn : 1 ≤ n) {a b mu : List Nat} (ha : IsPartition (n + 1) a) (hb : IsPartition (n + 1) b)
    (hmu : IsPartition n mu) :
    kmul n a b mu = ∑ x : Pt (n + 1), if mu ∈ subs x.1 then kronN (n + 1) a b x.1 else 0 := by
  have hf : (n ! : ℝ) ≠ 0 := by exact_mod_cast (Nat.factorial_pos n).ne'
  have cast_sum : ∀ (L : List (List Nat × List Nat)) (f : List Nat × List Nat → Nat), (((L.map f).sum : Nat) : ℝ) = (L.map fun e => (f e : ℝ)).sum := by
    intro L f; induction L with
    | nil => simp
    | cons e L ih => simp [ih]
  have sum_list : ∀ {α : Type} (L : List α) (f : α → Equiv.Perm (Fin n) → ℝ), ∑ σ, (L.map fun e => f e σ).sum = (L.map fun e => ∑ σ, f e σ).sum := by
    intro α L f; induction L with
    | nil => simp
    | cons e L ih => simp [Finset.sum_add_distrib, ih]
  have w2 : ∑ σ : Equiv.Perm (Fin n), chiN (n + 1) a (extend σ) * chiN (n + 1) b (extend σ) * chiN n mu σ = n ! * (kmul n a b mu : ℝ) := by
    have : ∀ σ : Equiv.Perm (Fin n), chiN (n + 1) a (extend σ) * chiN (n + 1) b (extend σ) * chiN n mu σ =
        ((sprs a b).map fun e => chiN n e.1 σ * chiN n e.2 σ * chiN n mu σ).sum := by
      intro σ
      rw [chiN_extend hn ha, chiN_extend hn hb, ← sum_sprs, ← List.sum_map_mul_right]
    rw [Finset.sum_congr rfl fun σ _ => this σ, sum_list]
    unfold kmul tot
    rw [cast_sum, ← List.sum_map_mul_left]
    congr 1
    refine List.map_congr_left fun e he => ?_
    obtain ⟨h1, h2⟩ := mem_sprs.1 he
    have p1 := sub_part ha _ h1
    have p2 := sub_part hb _ h2
    rw [kronN_eq p1 p2 hmu]
    unfold kron
    rw [mul_div_cancel₀ _ hf]
    exact Finset.sum_congr rfl fun σ _ => by rw [chiN_eq hn p1, chiN_eq hn p2, chiN_eq hn hmu]
  have w1 : ∑ σ : Equiv.Perm (Fin n), chiN (n + 1) a (extend σ) * chiN (n + 1) b (extend σ) * chiN n mu σ =
      n ! * ((∑ x : Pt (n + 1), if mu ∈ subs x.1 then kronN (n + 1) a b x.1 else 0 : Nat) : ℝ) := by
    have : ∀ σ : Equiv.Perm (Fin n), chiN (n + 1) a (extend σ) * chiN (n + 1) b (extend σ) * chiN n mu σ =
        ∑ x : Pt (n + 1), (kronN (n + 1) a b x.1 : ℝ) * ((subs x.1).map fun nu => chiN n nu σ * chiN n mu σ).sum := by
      intro σ
      rw [chiN_eq (by omega) ha, chiN_eq (by omega) hb, ← sum_kron_chi ha hb, Finset.sum_mul]
      refine Finset.sum_congr rfl fun x _ => ?_
      rw [← chiN_eq (by omega) x.2, chiN_extend hn x.2, mul_assoc, ← List.sum_map_mul_right]
    rw [Finset.sum_congr rfl fun σ _ => this σ, Finset.sum_comm]
    push_cast
    rw [Finset.mul_sum]
    refine Finset.sum_congr rfl fun x _ => ?_
    rw [← Finset.mul_sum, sum_list]
    have e : ((subs x.1).map fun nu => ∑ σ, chiN n nu σ * chiN n mu σ) = (subs x.1).map fun nu => if nu = mu then (n ! : ℝ) else 0 := by
      refine List.map_congr_left fun nu hnu => ?_
      have p1 := sub_part x.2 _ hnu
      rw [← chi_orthogonality p1 hmu]
      exact Finset.sum_congr rfl fun σ _ => by rw [chiN_eq hn p1, chiN_eq hn hmu]
    rw [e]
    by_cases hm : mu ∈ subs x.1
    · rw [if_pos hm]
      have := sum_single (subs_nodup x.1) (fun _ => (n ! : ℝ)) mu hm
      have e2 : ((subs x.1).map fun nu => if nu = mu then (n ! : ℝ) else 0).sum = n ! := by
        refine Eq.trans ?_ this
        congr 1
        exact List.map_congr_left fun nu _ => if_congr eq_comm rfl rfl
      rw [e2, mul_comm]
    · rw [if_neg hm]
      have e2 : ((subs x.1).map fun nu => if nu = mu then (n ! : ℝ) else 0) = (subs x.1).map fun _ => (0 : ℝ) :=
        List.map_congr_left fun nu hnu => by rw [if_neg]; rintro rfl; exact hm hnu
      rw [e2]; simp
  have := w2.symm.trans w1
  exact_mod_cast mul_left_cancel₀ hf this

end Snob
