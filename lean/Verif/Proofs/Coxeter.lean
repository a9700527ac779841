import Mathlib.GroupTheory.Perm.Sign
import Mathlib.Algebra.Group.Submonoid.Membership
import Verif.Proofs.SnElements

/-!
# Words in adjacent transpositions

A family `s` satisfying the Coxeter relations of type A in any monoid gives a homomorphism from the
symmetric group, computed by the insertion word that the code uses.
-/

namespace Snob

/-- the adjacent transposition of `k` and `k+1` (0-based) -/
def adj (n k : Nat) : Equiv.Perm (Fin n) :=
  if h : k + 1 < n then Equiv.swap ⟨k, by omega⟩ ⟨k + 1, h⟩ else 1

theorem adj_val {n k : Nat} (h : k + 1 < n) (i : Fin n) :
    ((adj n k i : Fin n) : Nat) = if (i : Nat) = k then k + 1 else if (i : Nat) = k + 1 then k else i := by
  unfold adj
  rw [dif_pos h, Equiv.swap_apply_def]
  simp only [Fin.ext_iff]
  split_ifs <;> rfl

/-- `τ` followed by the cycle that moves the last point to `t` -/
def mk {n : Nat} (t : Fin (n + 1)) (τ : Equiv.Perm (Fin n)) : Equiv.Perm (Fin (n + 1)) :=
  cyc t (Fin.last n) * extend τ

theorem mk_val {n : Nat} (t : Fin (n + 1)) (τ : Equiv.Perm (Fin n)) (i : Fin (n + 1)) :
    ((mk t τ i : Fin (n + 1)) : Nat) = if h : (i : Nat) < n then
      (if (τ ⟨i, h⟩ : Nat) < t then (τ ⟨i, h⟩ : Nat) else τ ⟨i, h⟩ + 1) else t := by
  show ((cyc t (Fin.last n) (extend τ i) : Fin (n + 1)) : Nat) = _
  rw [cyc_apply _ _ (Fin.le_last t)]
  have ht := t.2
  have hi := i.2
  simp only [Fin.val_last]
  by_cases h : (i : Nat) < n
  · have e : extend τ i = (τ ⟨i, h⟩).castSucc := extend_castSucc τ ⟨i, h⟩
    have hv := (τ ⟨i, h⟩).2
    rw [dif_pos h, e]
    simp only [Fin.val_castSucc]
    split_ifs <;> omega
  · have e : i = Fin.last n := Fin.ext (by rw [Fin.val_last]; omega)
    rw [dif_neg h, e, extend_last]
    simp only [Fin.val_last]
    rw [if_neg (by omega)]
    simp

theorem mk_last {n : Nat} (t : Fin (n + 1)) (τ : Equiv.Perm (Fin n)) : mk t τ (Fin.last n) = t := by
  apply Fin.ext
  rw [mk_val, dif_neg (by simp)]

theorem mk_bijective (n : Nat) :
    Function.Bijective (fun x : Fin (n + 1) × Equiv.Perm (Fin n) => mk x.1 x.2) := by
  rw [Fintype.bijective_iff_injective_and_card]
  constructor
  · rintro ⟨t, τ⟩ ⟨t', τ'⟩ h
    have h1 : t = t' := by rw [← mk_last t τ, ← mk_last t' τ']; exact congrArg (· (Fin.last n)) h
    subst h1
    have : τ = τ' := extend_injective (mul_left_cancel h)
    rw [this]
  · rw [Fintype.card_prod, Fintype.card_perm, Fintype.card_perm, Fintype.card_fin, Fintype.card_fin]
    rfl

/-- every permutation is `mk t τ` in exactly one way -/
noncomputable def mkEquiv (n : Nat) : Fin (n + 1) × Equiv.Perm (Fin n) ≃ Equiv.Perm (Fin (n + 1)) :=
  Equiv.ofBijective _ (mk_bijective n)

theorem mkEquiv_symm_mk {n : Nat} (t : Fin (n + 1)) (τ : Equiv.Perm (Fin n)) :
    (mkEquiv n).symm (mk t τ) = (t, τ) := (mkEquiv n).symm_apply_apply (t, τ)

theorem exists_mk {n : Nat} (σ : Equiv.Perm (Fin (n + 1))) : ∃ t τ, σ = mk t τ := by
  obtain ⟨⟨t, τ⟩, h⟩ := (mkEquiv n).surjective σ
  exact ⟨t, τ, h.symm⟩

theorem mk_one {n : Nat} : mk (Fin.last n) 1 = 1 := by
  ext i
  rw [mk_val]
  have := i.2
  by_cases h : (i : Nat) < n
  · rw [dif_pos h, if_pos (by exact h)]
    rfl
  · rw [dif_neg h]
    show n = (i : Nat)
    omega

theorem adj_mul_mk_below {n k : Nat} (t : Fin (n + 1)) (τ : Equiv.Perm (Fin n)) (h : k + 1 < t) :
    adj (n + 1) k * mk t τ = mk t (adj n k * τ) := by
  have ht := t.2
  ext i
  show ((adj (n + 1) k (mk t τ i) : Fin (n + 1)) : Nat) = _
  rw [adj_val (by omega), mk_val, mk_val]
  by_cases hi : (i : Nat) < n
  · simp only [dif_pos hi]
    have hv := (τ ⟨i, hi⟩).2
    rw [Equiv.Perm.mul_apply, adj_val (by omega)]
    split_ifs <;> omega
  · simp only [dif_neg hi]
    split_ifs <;> omega

theorem adj_mul_mk_pred {n k : Nat} (t t' : Fin (n + 1)) (τ : Equiv.Perm (Fin n)) (h : (t : Nat) = k + 1)
    (h' : (t' : Nat) = k) : adj (n + 1) k * mk t τ = mk t' τ := by
  have ht := t.2
  ext i
  show ((adj (n + 1) k (mk t τ i) : Fin (n + 1)) : Nat) = _
  rw [adj_val (by omega), mk_val, mk_val]
  by_cases hi : (i : Nat) < n
  · simp only [dif_pos hi]
    split_ifs <;> omega
  · simp only [dif_neg hi]
    split_ifs <;> omega

theorem adj_mul_mk_succ {n k : Nat} (t t' : Fin (n + 1)) (τ : Equiv.Perm (Fin n)) (h : (t : Nat) = k)
    (h' : (t' : Nat) = k + 1) : adj (n + 1) k * mk t τ = mk t' τ := by
  have ht := t'.2
  ext i
  show ((adj (n + 1) k (mk t τ i) : Fin (n + 1)) : Nat) = _
  rw [adj_val (by omega), mk_val, mk_val]
  by_cases hi : (i : Nat) < n
  · simp only [dif_pos hi]
    split_ifs <;> omega
  · simp only [dif_neg hi]
    split_ifs <;> omega

theorem adj_mul_mk_above {n k : Nat} (t : Fin (n + 1)) (τ : Equiv.Perm (Fin n)) (h : (t : Nat) < k + 1)
    (hk : k + 1 < n) : adj (n + 1) (k + 1) * mk t τ = mk t (adj n k * τ) := by
  ext i
  show ((adj (n + 1) (k + 1) (mk t τ i) : Fin (n + 1)) : Nat) = _
  rw [adj_val (by omega), mk_val, mk_val]
  by_cases hi : (i : Nat) < n
  · simp only [dif_pos hi]
    have hv := (τ ⟨i, hi⟩).2
    rw [Equiv.Perm.mul_apply, adj_val (by omega)]
    split_ifs <;> omega
  · simp only [dif_neg hi]
    split_ifs <;> omega

theorem extend_adj {n k : Nat} (h : k + 1 < n) : extend (adj n k) = adj (n + 1) k := by
  ext i
  rw [adj_val (by omega)]
  refine Fin.lastCases ?_ (fun i => ?_) i
  · rw [extend_last]; simp only [Fin.val_last]; split_ifs <;> omega
  · rw [extend_castSucc, Fin.val_castSucc, adj_val h]
    simp

/-- induction along adjacent transpositions -/
theorem perm_induction {n : Nat} {P : Equiv.Perm (Fin n) → Prop} (h1 : P 1)
    (hs : ∀ k σ, k + 1 < n → P σ → P (adj n k * σ)) (σ : Equiv.Perm (Fin n)) : P σ := by
  rcases n with _ | n
  · have : σ = 1 := Subsingleton.elim _ _
    rw [this]; exact h1
  · have hσ : σ ∈ Submonoid.closure (Set.range fun i : Fin n => Equiv.swap i.castSucc i.succ) := by
      rw [Equiv.Perm.mclosure_swap_castSucc_succ]; trivial
    induction hσ using Submonoid.closure_induction_left with
    | one => exact h1
    | mul_left x hx y hy ih =>
      obtain ⟨i, rfl⟩ := hx
      have e : Equiv.swap i.castSucc i.succ = adj (n + 1) i := by
        unfold adj
        rw [dif_pos (by have := i.2; omega)]
        rfl
      simp only [e]
      exact hs _ _ (by have := i.2; omega) ih

section
variable {M : Type*} [Monoid M]

/-- the Coxeter relations of type A for `s 0, ..., s (n-2)` -/
structure Coxeter (n : Nat) (s : Nat → M) : Prop where
  sq : ∀ k, k + 1 < n → s k * s k = 1
  comm : ∀ j k, j + 2 ≤ k → k + 1 < n → s j * s k = s k * s j
  braid : ∀ k, k + 2 < n → s k * s (k + 1) * s k = s (k + 1) * s k * s (k + 1)

theorem Coxeter.mono {n m : Nat} {s : Nat → M} (h : Coxeter n s) (hm : m ≤ n) : Coxeter m s :=
  ⟨fun k hk => h.sq k (by omega), fun j k hj hk => h.comm j k hj (by omega),
    fun k hk => h.braid k (by omega)⟩

/-- `s t * s (t+1) * ... * s (t+m-1)` -/
def run (s : Nat → M) : Nat → Nat → M
  | _, 0 => 1
  | t, m + 1 => s t * run s (t + 1) m

theorem run_succ (s : Nat → M) (t m : Nat) : run s t (m + 1) = run s t m * s (t + m) := by
  induction m generalizing t with
  | zero => simp [run]
  | succ m ih =>
    rw [run, ih (t + 1), run, mul_assoc]
    congr 3
    omega

theorem run_add (s : Nat → M) (t m m' : Nat) : run s t (m + m') = run s t m * run s (t + m) m' := by
  induction m' with
  | zero => simp [run]
  | succ m' ih => rw [← Nat.add_assoc, run_succ, ih, run_succ, mul_assoc, Nat.add_assoc]

theorem Coxeter.comm_run {n : Nat} {s : Nat → M} (h : Coxeter n s) (k t m : Nat) (hk : k + 2 ≤ t)
    (ht : t + m < n) : s k * run s t m = run s t m * s k := by
  induction m with
  | zero => simp [run]
  | succ m ih =>
    rw [run_succ, ← mul_assoc, ih (by omega), mul_assoc, h.comm k (t + m) (by omega) (by omega),
      mul_assoc]

theorem Coxeter.run_comm {n : Nat} {s : Nat → M} (h : Coxeter n s) (k t m : Nat) (hk : t + m + 1 ≤ k)
    (hn : k + 1 < n) : s k * run s t m = run s t m * s k := by
  induction m with
  | zero => simp [run]
  | succ m ih =>
    rw [run_succ, ← mul_assoc, ih (by omega), mul_assoc, ← h.comm (t + m) k (by omega) (by omega),
      mul_assoc]

/-- moving a generator through a run that contains it and its lower neighbour -/
theorem Coxeter.run_shift {n : Nat} {s : Nat → M} (h : Coxeter n s) (k t m : Nat) (h1 : t ≤ k)
    (h2 : k + 2 ≤ t + m) (hn : t + m < n) : s (k + 1) * run s t m = run s t m * s k := by
  obtain ⟨a, rfl⟩ : ∃ a, k = t + a := ⟨k - t, by omega⟩
  obtain ⟨b, rfl⟩ : ∃ b, m = a + (2 + b) := ⟨m - a - 2, by omega⟩
  rw [run_add, run_add]
  have e : run s (t + a) 2 = s (t + a) * s (t + a + 1) := by simp [run]
  have hb := h.braid (t + a) (by omega)
  have hc := h.comm_run (t + a) (t + a + 2) b (by omega) (by omega)
  have hr := h.run_comm (t + a + 1) t a (by omega) (by omega)
  rw [e]
  calc s (t + a + 1) * (run s t a * (s (t + a) * s (t + a + 1) * run s (t + a + 2) b))
      = (s (t + a + 1) * run s t a) * (s (t + a) * s (t + a + 1) * run s (t + a + 2) b) := by
        simp only [mul_assoc]
    _ = run s t a * ((s (t + a + 1) * s (t + a) * s (t + a + 1)) * run s (t + a + 2) b) := by
        rw [hr]; simp only [mul_assoc]
    _ = run s t a * (s (t + a) * s (t + a + 1) * (s (t + a) * run s (t + a + 2) b)) := by
        rw [← hb]; simp only [mul_assoc]
    _ = _ := by rw [hc]; simp only [mul_assoc]

/-- the insertion word of a permutation, evaluated in `M` -/
noncomputable def cox (s : Nat → M) : (n : Nat) → Equiv.Perm (Fin n) → M
  | 0, _ => 1
  | n + 1, σ => run s ((mkEquiv n).symm σ).1 (n - ((mkEquiv n).symm σ).1) *
      cox s n ((mkEquiv n).symm σ).2

theorem cox_mk (s : Nat → M) {n : Nat} (t : Fin (n + 1)) (τ : Equiv.Perm (Fin n)) :
    cox s (n + 1) (mk t τ) = run s t (n - t) * cox s n τ := by
  simp only [cox, mkEquiv_symm_mk]

theorem cox_one (s : Nat → M) (n : Nat) : cox s n 1 = 1 := by
  induction n with
  | zero => rfl
  | succ n ih => rw [← mk_one, cox_mk, ih]; simp [run]

theorem cox_adj_mul {n : Nat} {s : Nat → M} (h : Coxeter n s) (k : Nat) (hk : k + 1 < n)
    (σ : Equiv.Perm (Fin n)) : cox s n (adj n k * σ) = s k * cox s n σ := by
  induction n generalizing k with
  | zero => omega
  | succ n ih =>
    obtain ⟨t, τ, rfl⟩ := exists_mk σ
    have ht := t.2
    have ih := ih (h.mono (Nat.le_succ n))
    rcases Nat.lt_trichotomy (k + 1) t with h1 | h1 | h1
    · rw [adj_mul_mk_below t τ h1, cox_mk, cox_mk, ih k (by omega), ← mul_assoc, ← mul_assoc,
        h.comm_run k t (n - t) (by omega) (by omega)]
    · rw [adj_mul_mk_pred t ⟨k, by omega⟩ τ h1.symm rfl, cox_mk, cox_mk]
      have e : n - k = (n - t) + 1 := by omega
      show run s k (n - k) * _ = _
      rw [e, run, mul_assoc, h1]
    · rcases Nat.eq_or_lt_of_le (Nat.lt_succ_iff.1 h1) with h2 | h2
      · rw [adj_mul_mk_succ t ⟨k + 1, hk⟩ τ h2 rfl, cox_mk, cox_mk]
        show run s (k + 1) (n - (k + 1)) * _ = _
        have e : n - t = (n - (k + 1)) + 1 := by omega
        rw [e, run, h2, ← mul_assoc, ← mul_assoc, h.sq k (by omega), one_mul]
      · obtain ⟨k, rfl⟩ : ∃ k', k = k' + 1 := ⟨k - 1, by omega⟩
        rw [adj_mul_mk_above t τ h2 (by omega), cox_mk, cox_mk, ih k (by omega), ← mul_assoc,
          ← mul_assoc, h.run_shift k t (n - t) (by omega) (by omega) (by omega)]

theorem cox_mul {n : Nat} {s : Nat → M} (h : Coxeter n s) (σ π : Equiv.Perm (Fin n)) :
    cox s n (σ * π) = cox s n σ * cox s n π := by
  induction σ using perm_induction with
  | h1 => rw [one_mul, cox_one, one_mul]
  | hs k σ hk ih => rw [mul_assoc, cox_adj_mul h k hk, ih, cox_adj_mul h k hk, mul_assoc]

theorem cox_adj {n : Nat} {s : Nat → M} (h : Coxeter n s) (k : Nat) (hk : k + 1 < n) :
    cox s n (adj n k) = s k := by
  have := cox_adj_mul h k hk 1
  rwa [mul_one, cox_one, mul_one] at this

/-- the homomorphism given by a Coxeter family -/
noncomputable def coxHom {n : Nat} {s : Nat → M} (h : Coxeter n s) : Equiv.Perm (Fin n) →* M where
  toFun := cox s n
  map_one' := cox_one s n
  map_mul' := cox_mul h

end

/-- the adjacent transpositions satisfy the Coxeter relations -/
theorem coxeter_adj (n : Nat) : Coxeter n (adj n) := by
  refine ⟨fun k hk => ?_, fun j k hj hk => ?_, fun k hk => ?_⟩
  · ext i
    show ((adj n k (adj n k i) : Fin n) : Nat) = i
    rw [adj_val hk, adj_val hk]
    split_ifs <;> omega
  · ext i
    show ((adj n j (adj n k i) : Fin n) : Nat) = (adj n k (adj n j i) : Fin n)
    rw [adj_val (by omega), adj_val hk, adj_val hk, adj_val (by omega)]
    split_ifs <;> omega
  · ext i
    show ((adj n k (adj n (k + 1) (adj n k i)) : Fin n) : Nat) =
      (adj n (k + 1) (adj n k (adj n (k + 1) i)) : Fin n)
    rw [adj_val (by omega), adj_val (by omega), adj_val (by omega), adj_val (by omega),
      adj_val (by omega), adj_val (by omega)]
    split_ifs <;> omega

end Snob
