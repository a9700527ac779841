import Verif.Proofs.Machine
import Verif.Proofs.SnCosets

/-! # Cosets in 32 bit arithmetic -/

namespace Snob.Machine

open Snob
open scoped Nat

theorem digitLoop_ok_lo {red : Int → Option Int} (hr : Exact red) {n : Nat} (h : n ≤ 12) (m : Nat) (e : Nat) (he : e < n !) :
    digitLoop red n m e = Snob.digitLoop n m e := by
  unfold digitLoop Snob.digitLoop forDown
  refine iterDown_sim (fun i se => 0 ≤ se.2 ∧ se.2 < (((i.toNat)! : Nat) : Int)) _ _ _ ⟨by simp, by simpa using he⟩ ?_
  rintro j ⟨s, r⟩ h1 h2 ⟨h3, h4⟩
  obtain ⟨i, rfl⟩ : ∃ i : Nat, j = ((i + 1 : Nat) : Int) := ⟨(j - 1).toNat, by omega⟩
  obtain ⟨m, rfl⟩ := Int.eq_ofNat_of_zero_le h3
  have hi : i + 1 ≤ n := by omega
  have e1 : (((i + 1 : Nat) : Int) - 1).toNat = i := by omega
  simp only [Int.toNat_natCast] at h4 ⊢
  rw [e1, factorial_ok hr (by omega)]
  simp only [Option.bind_eq_bind, Option.bind_some]
  have hm : m < (i + 1)! := by exact_mod_cast h4
  have hq : m / i ! ≤ i := by
    rw [Nat.factorial_succ] at hm
    have := (Nat.div_lt_iff_lt_mul (Nat.factorial_pos i)).2 hm
    omega
  have hv : i + 1 - m / i ! ≤ i + 1 := Nat.sub_le _ _
  have hmod : m % i ! < i ! := Nat.mod_lt _ (Nat.factorial_pos i)
  have hlt := factorial_le_12 (by omega : i ≤ 12)
  rw [← Int.ofNat_tdiv, ← Int.ofNat_tmod, hr _ (fits_nat (by omega)), Option.bind_some,
    show ((i + 1 : Nat) : Int) - ((m / i ! : Nat) : Int) = ((i + 1 - m / i ! : Nat) : Int) by omega, hr _ (fits_nat (by omega)), Option.bind_some,
    hr _ (fits_nat (by omega))]
  refine ⟨rfl, ?_⟩
  intro s' hs'
  cases hw : wr s (((i + 1 : Nat) : Int) - 1) ((i + 1 - m / i ! : Nat) : Int) with
  | none => rw [hw] at hs'; simp at hs'
  | some a =>
    rw [hw, Option.bind_some, Option.some.injEq] at hs'
    subst hs'
    have hmod' : ((m % i ! : Nat) : Int) < ((i ! : Nat) : Int) := by exact_mod_cast hmod
    exact ⟨by simp only; omega, hmod'⟩

theorem mul_factorial_lt {n m e : Nat} (hm : m ≤ n) (he : e < Snob.snsmSize n m) : e * m ! < n ! := by
  have := (Nat.lt_div_iff_mul_lt' (Nat.factorial_dvd_factorial hm) e).1 he
  rwa [Nat.mul_comm]

theorem snsmElement_ok {red : Int → Option Int} (hr : Exact red) {n m : Nat} (hm : m ≤ n) (h : n ≤ 12) (e : Nat)
    (he : e < Snob.snsmSize n m) : snsmElement red n m e = Snob.snsmElement n m e := by
  have h1 := mul_factorial_lt hm he
  have h2 := factorial_le_12 h
  unfold snsmElement Snob.snsmElement
  rw [factorial_ok hr (by omega)]
  simp only [Option.bind_eq_bind, Option.bind_some]
  rw [← Nat.cast_mul, hr _ (fits_nat (by omega))]
  simp only [Option.bind_some]
  rw [digitLoop_ok_lo hr h m _ h1]

theorem snsmSize_ok {red : Int → Option Int} (hr : Exact red) {n m : Nat} (hm : m ≤ n) (h : n ≤ 12) :
    snsmSize red n m = some (Snob.snsmSize n m : Int) := by
  unfold snsmSize Snob.snsmSize
  rw [factorial_ok hr h, factorial_ok hr (by omega)]
  simp only [Option.bind_eq_bind, Option.bind_some]
  have := Nat.factorial_pos m
  rw [if_neg (by omega), ← Int.ofNat_tdiv]
  exact hr _ (fits_nat ((Nat.div_le_self _ _).trans_lt (factorial_le_12 h)))

theorem iterUpE_range {S : Type} {body : Int → S → Option (Int ⊕ S)} (hb : ∀ j s r, body j s = some (.inl r) → r = j) (k : Nat) :
    ∀ (i : Int) (s : S) (r : Int), iterUpE body k i s = some (.inl r) → i ≤ r ∧ r < i + k := by
  induction k with
  | zero => intro i s r h; simp [iterUpE] at h
  | succ k ih =>
    intro i s r h
    rw [iterUpE, Option.bind_eq_some_iff] at h
    obtain ⟨x, hx, h⟩ := h
    rcases x with x | s'
    · simp only [Option.some.injEq, Sum.inl.injEq] at h
      have := hb _ _ _ hx
      subst h
      omega
    · have := ih _ _ _ h
      omega

theorem snsmLoop_ok {red : Int → Option Int} (hr : Exact red) {n : Nat} (h : n ≤ 12) (m : Nat) (s : Arr) :
    forDown n ((m : Int) + 1) (s, (0 : Int)) (snsmIndexStep red) = forDown n ((m : Int) + 1) (s, (0 : Int)) Snob.snsmIndexStep := by
  unfold forDown
  have hn := factorial_le_12 h
  refine iterDown_sim (fun i st => 0 ≤ st.2 ∧ st.2 + (((i.toNat)! : Nat) : Int) ≤ ((n ! : Nat) : Int)) _ _ _ ⟨by simp, by simp⟩ ?_
  rintro j ⟨s, t⟩ h1 h2 ⟨h3, h4⟩
  obtain ⟨k, rfl⟩ : ∃ k : Nat, j = ((k + 1 : Nat) : Int) := ⟨(j - 1).toNat, by omega⟩
  have hk : k + 1 ≤ n := by omega
  have e1 : (((k + 1 : Nat) : Int) - 1).toNat = k := by omega
  rw [e1]
  simp only [Int.toNat_natCast] at h3 h4
  unfold snsmIndexStep Snob.snsmIndexStep
  simp only [Option.bind_eq_bind]
  generalize hf : forUpE (R := Int) 0 ((k + 1 : Nat) : Int) () (fun i _ =>
    (rd s i).bind fun v => if v = ((k + 1 : Nat) : Int) then some (Sum.inl i) else some (Sum.inr ())) = F
  have hfac : (k + 1)! = (k + 1) * k ! := Nat.factorial_succ k
  rcases F with _ | r | u
  · simp
  · have hr' := iterUpE_range (fun j s' r hx => by
      rw [Option.bind_eq_some_iff] at hx
      obtain ⟨v, _, hx⟩ := hx
      split_ifs at hx <;> simp at hx
      exact hx.symm) _ _ _ _ hf
    obtain ⟨hr0, hr1⟩ := hr'
    obtain ⟨i, rfl⟩ := Int.eq_ofNat_of_zero_le hr0
    obtain ⟨t, rfl⟩ := Int.eq_ofNat_of_zero_le h3
    have hi : i ≤ k := by omega
    simp only [Option.bind_some, e1]
    rw [factorial_ok hr (by omega)]
    simp only [Option.bind_some]
    have e2 : ((k + 1 : Nat) : Int) - (i : Int) - 1 = ((k - i : Nat) : Int) := by omega
    have h5 : (k - i) * k ! + k ! ≤ (k + 1)! := by
      rw [hfac, ← Nat.succ_mul]
      exact Nat.mul_le_mul_right _ (by omega)
    have h6 : t + (k + 1)! ≤ n ! := by exact_mod_cast h4
    rw [e2, ← Nat.cast_mul, hr _ (fits_nat (by omega))]
    simp only [Option.bind_some]
    rw [← Nat.cast_add, hr _ (fits_nat (by omega))]
    simp only [Option.bind_some]
    refine ⟨trivial, fun st' hst' => ?_⟩
    rw [Option.bind_eq_some_iff] at hst'
    obtain ⟨s', _, hst'⟩ := hst'
    rw [Option.some.injEq] at hst'
    subst hst'
    refine ⟨by simp only; omega, ?_⟩
    have : t + (k - i) * k ! + k ! ≤ n ! := by omega
    simp only
    exact_mod_cast this
  · simp only [Option.bind_some, Option.some.injEq, forall_eq', true_and]
    refine ⟨h3, ?_⟩
    have : (k ! : Nat) ≤ (k + 1)! := Nat.factorial_le (Nat.le_succ k)
    omega

theorem snsmLoop_fits {n : Nat} (m : Nat) (s : Arr) (r : Arr × Int)
    (h : forDown n ((m : Int) + 1) (s, (0 : Int)) Snob.snsmIndexStep = some r) (hn : n ≤ 12) : Fits r.2 := by
  have h0 : ∀ (k : Nat) (i : Int) (st : Arr × Int), Fits st.2 → iterDown (snsmIndexStep ck) k i st = some r → Fits r.2 := by
    intro k
    induction k with
    | zero => intro i st hf h; simp [iterDown] at h; rwa [← h]
    | succ k ih =>
      intro i st hf h
      rw [iterDown, Option.bind_eq_some_iff] at h
      obtain ⟨st', h1, h2⟩ := h
      refine ih _ _ ?_ h2
      unfold snsmIndexStep at h1
      simp only [Option.bind_eq_bind] at h1
      rw [Option.bind_eq_some_iff] at h1
      obtain ⟨x, _, h1⟩ := h1
      rcases x with x | x
      · simp only [Option.bind_eq_some_iff] at h1
        obtain ⟨_, _, _, _, t, ht, _, _, h1⟩ := h1
        rw [Option.some.injEq] at h1
        subst h1
        unfold ck at ht
        split_ifs at ht with hh
        simp only [Option.some.injEq] at ht
        subst ht
        exact hh
      · simp only [Option.some.injEq] at h1
        rwa [← h1]
  rw [← snsmLoop_ok exact_ck hn] at h
  exact h0 _ _ _ (show Fits 0 by decide) h

theorem snsmIndex_ok {red : Int → Option Int} (hr : Exact red) {n m : Nat} (hm : m ≤ n) (h : n ≤ 12) (a : Arr) :
    snsmIndex red n m a = Snob.snsmIndex n m a := by
  unfold snsmIndex Snob.snsmIndex
  have hp := Nat.factorial_pos m
  rw [factorial_ok hr (by omega)]
  simp only [Option.bind_eq_bind, snsmLoop_ok hr h, Option.bind_some, if_neg (by omega : ¬ ((m ! : Nat) : Int) = 0)]
  by_cases h1 : a.length ≠ n
  · simp only [if_pos h1]; rfl
  · simp only [if_neg h1]
    cases forUp 0 (n : Int) (List.replicate n (some (0 : Int))) (fun i s => (rd a i).bind fun v => wr s i v) with
    | none => rfl
    | some s =>
      simp only [Option.bind_some]
      cases hl : forDown n ((m : Int) + 1) (s, (0 : Int)) Snob.snsmIndexStep with
      | none => rfl
      | some r => exact hr _ (fits_tdiv (snsmLoop_fits m s r hl h) (by omega))

theorem factorial_wrap_zero {n : Nat} (h : 34 ≤ n) : factorial wrap n = some 0 := by
  induction n, h using Nat.le_induction with
  | base => decide +kernel
  | succ n _ ih => rw [factorial, ih]; simp [wrap]

end Snob.Machine
