import Verif.Proofs.SnElements

/-! # Cosets of `Sm` in `Sn` and the nested structure of the enumeration -/

namespace Snob

open Snob.Perm Nat

/-- The first `k` cells of a buffer of length `n` hold `τ`. -/
def Holds {k : Nat} (n : Nat) (τ : Equiv.Perm (Fin k)) (s : Arr) : Prop :=
  s.length = n ∧ ∀ j : Fin k, s[(j : Nat)]? = some (some ((τ j : Int) + 1))

theorem snsmIndexStep_ins {n k : Nat} (hk : k < n) (t : Fin (k + 1)) (τ : Equiv.Perm (Fin k)) (s : Arr) (acc : Int)
    (hs : Holds n (ins t τ) s) :
    ∃ s', snsmIndexStep ((k : Int) + 1) (s, acc) = some (s', acc + ((k : Int) - (t : Nat)) * (k ! : Nat)) ∧
      Holds n τ s' := by
  obtain ⟨hl, hv⟩ := hs
  have ht := t.2
  have hrd : ∀ (i : Nat) (h : i < k + 1), rd s (i : Int) = some ((ins t τ ⟨i, h⟩ : Int) + 1) := by
    intro i h
    rw [rd_ofNat, hv ⟨i, h⟩]; rfl
  have hlast : ∀ j : Fin k, ((τ j : Nat) : Int) + 1 ≠ (k : Int) + 1 := by
    intro j; have := (τ j).2; omega
  have h1 := forUpE_inv (R := Int) (lo := 0) (hi := (k : Int) + 1) (s := ())
    (body := fun i _ => (rd s i).bind fun v => if v = (k : Int) + 1 then some (.inl i) else some (.inr ()))
    (fun i _ => i ≤ (t : Nat)) (fun r => r = (t : Nat)) (by omega) (by omega)
    (by
      intro i _ h0 h2 hit
      obtain ⟨j, rfl⟩ := Int.eq_ofNat_of_zero_le h0
      have hj : j < k + 1 := by omega
      rw [hrd j hj]
      rcases Nat.lt_or_eq_of_le (show j ≤ (t : Nat) by omega) with hlt | heq
      · right
        rw [ins_lt t τ ⟨j, hj⟩ hlt]
        have hne := hlast ⟨j, by omega⟩
        refine ⟨(), ?_, by omega⟩
        simp only [Option.bind_some, Fin.val_castSucc]
        rw [if_neg hne]
      · left
        have hjt : (⟨j, hj⟩ : Fin (k + 1)) = t := Fin.ext heq
        rw [hjt, ins_eq]
        exact ⟨(j : Int), by simp, by rw [heq]⟩)
  unfold snsmIndexStep
  simp only [Option.bind_eq_bind] at h1 ⊢
  rcases h1 with ⟨r, he, rfl⟩ | ⟨_, _, hp⟩
  · rw [he]
    simp only [Option.bind_some]
    obtain ⟨s', he', hl', hw', -⟩ := forUp_inv (lo := ((t : Nat) : Int) + 1) (hi := (k : Int) + 1) (s := s)
      (body := fun i s => (rd s i).bind fun v => wr s (i - 1) v)
      (fun i s => s.length = n ∧ (∀ j : Fin k, (j : Int) + 1 < i → s[(j : Nat)]? = some (some ((τ j : Int) + 1))) ∧
        (∀ j : Fin (k + 1), i ≤ (j : Int) → s[(j : Nat)]? = some (some ((ins t τ j : Int) + 1))))
      (by omega)
      ⟨hl, fun j hj => by
        have hj2 := j.2
        have := hv ⟨j, by omega⟩
        rw [ins_lt t τ ⟨j, by omega⟩ (by simp only; omega)] at this
        simpa using this, fun j _ => hv j⟩
      (by
        rintro i s h0 h2 ⟨hl, hw, hk2⟩
        obtain ⟨m, rfl⟩ : ∃ m : Nat, i = ((m + 1 : Nat) : Int) := ⟨(i - 1).toNat, by omega⟩
        have hm : m + 1 < k + 1 := by omega
        have hm' : m < k := by omega
        have := hk2 ⟨m + 1, hm⟩ (by simp)
        rw [ins_gt t τ ⟨m + 1, hm⟩ (by simp only; omega)] at this
        simp only [Nat.add_sub_cancel, Fin.val_castSucc] at this
        have e1 : (((m + 1 : Nat) : Int) - 1) = (m : Int) := by omega
        rw [rd_ofNat, this, e1]
        refine ⟨s.set m (some ((τ ⟨m, hm'⟩ : Int) + 1)), ?_, by simpa using hl, ?_, ?_⟩
        · simp only [Option.join_some, Option.bind_some]
          rw [wr_ofNat _ _ _ (by omega)]
        · intro j hj
          rw [List.getElem?_set]
          by_cases hjm : m = (j : Nat)
          · subst hjm; simp [hl, show (j : Nat) < n by omega]
          · rw [if_neg hjm]; exact hw j (by omega)
        · intro j hj
          rw [List.getElem?_set, if_neg (by omega)]
          exact hk2 j (by omega))
    rw [he']
    refine ⟨s', ?_, hl', fun j => hw' j (by have := j.2; omega)⟩
    simp only [Option.bind_some]
    have e1 : ((k : Int) + 1 - 1).toNat = k := by omega
    have e2 : (k : Int) + 1 - (t : Nat) - 1 = (k : Int) - (t : Nat) := by omega
    rw [e1, e2]
  · omega

theorem div_factorial_le {k e : Nat} (he : e < (k + 1)!) : e / k ! ≤ k := by
  rw [Nat.factorial_succ] at he
  have := (Nat.div_lt_iff_lt_mul (Nat.factorial_pos k)).2 he
  omega

theorem snsmIndex_elem (n m : Nat) (hm : m ≤ n) (e : Nat) (he : e < n !) :
    snsmIndex n m (enc (elem n e)) = some ((e / m ! : Nat) : Int) := by
  unfold snsmIndex
  have h0 : ¬ ((enc (elem n e)).length ≠ n) := by simp
  simp only [if_neg h0, Option.bind_eq_bind]
  obtain ⟨s, h, hl, hw, -⟩ := forUp_scatter (n := n) (lo := 0) (hi := n) (r0 := List.replicate n (some 0)) (by omega)
    (by simp) (body := fun i s => (rd (enc (elem n e)) i).bind fun v => wr s i v) (fun i => i.toNat)
    (fun i => if h : i.toNat < n then (elem n e ⟨i.toNat, h⟩ : Nat) + 1 else 0)
    (by intro i h1 h2; omega) (by intro i j h1 h2 h3; omega)
    (by
      intro i r h1 h2 _
      have hi : i.toNat < n := by omega
      have e1 := rd_enc (elem n e) ⟨i.toNat, hi⟩
      simp only [Int.toNat_of_nonneg h1] at e1
      simp [e1, hi, Int.toNat_of_nonneg h1])
  rw [h]
  simp only [Option.bind_some]
  obtain ⟨st, hst, k, hk1, hk2, hkm, hkn⟩ := forDown_inv (lo := (m : Int) + 1) (hi := (n : Int)) (s := (s, (0 : Int)))
    (body := snsmIndexStep)
    (fun i st => ∃ k : Nat, i = (k : Int) ∧ k ≤ n ∧ Holds n (elem k (e % k !)) st.1 ∧
      st.2 = ((e - e % k ! : Nat) : Int))
    (by omega)
    ⟨n, rfl, le_refl _, by
      rw [Nat.mod_eq_of_lt he]
      refine ⟨hl, fun j => ?_⟩
      have := hw (j : Nat) (by omega) (by have := j.2; omega)
      simpa using this, by simp [Nat.mod_eq_of_lt he]⟩
    (by
      rintro i ⟨s, acc⟩ h1 h2 ⟨k, rfl, hkn, hh, hacc⟩
      obtain ⟨k, rfl⟩ : ∃ k', k = k' + 1 := ⟨k - 1, by omega⟩
      rw [elem, mod_mod_factorial (Nat.le_succ k)] at hh
      obtain ⟨s', hs', hh'⟩ := snsmIndexStep_ins (by omega) _ _ s acc hh
      refine ⟨(s', acc + ((k : Int) - ((k - e % (k + 1)! / k ! : Nat) : Int)) * (k ! : Nat)), ?_, k,
        by push_cast; ring, by omega, hh', ?_⟩
      · push_cast
        exact hs'
      · simp only at hacc ⊢
        rw [hacc]
        have hd : e % (k + 1)! / k ! ≤ k := div_factorial_le (Nat.mod_lt _ (Nat.factorial_pos _))
        have e1 : ((k : Int) - ((k - e % (k + 1)! / k ! : Nat) : Int)) = ((e % (k + 1)! / k ! : Nat) : Int) := by omega
        rw [e1]
        have e2 := Nat.mod_add_div (e % (k + 1)!) (k !)
        rw [mod_mod_factorial (Nat.le_succ k), Nat.mul_comm] at e2
        have e3 := Nat.mod_le e (k + 1)!
        have e4 := Nat.mod_le e (k !)
        zify [e3, e4] at e2 ⊢
        linarith)
  rw [hst]
  have : k = m := by omega
  subst this
  simp only [Option.bind_some, hkn]
  rw [← Int.ofNat_tdiv]
  congr 2
  have e4 := Nat.mod_add_div e (k !)
  have : e - e % k ! = k ! * (e / k !) := by omega
  rw [this, Nat.mul_div_cancel_left _ (Nat.factorial_pos k)]

/-- Equal quotients by `m!` means: the values `≥ m` (0-based) occur at the same places. -/
theorem coset_iff (n m : Nat) (hm : m ≤ n) (e e' : Nat) (he : e < n !) (he' : e' < n !) :
    e / m ! = e' / m ! ↔ ∀ i : Fin n, m ≤ (elem n e i : Nat) → elem n e' i = elem n e i := by
  induction n generalizing e e' with
  | zero =>
    have : e = 0 := by simpa using he
    have : e' = 0 := by simpa using he'
    subst_vars
    simp
  | succ n ih =>
    rcases Nat.lt_or_eq_of_le hm with hlt | heq
    · have hmn : m ≤ n := by omega
      obtain ⟨c, hc⟩ := Nat.factorial_dvd_factorial hmn
      have hfm := Nat.factorial_pos m
      have hfn := Nat.factorial_pos n
      have hde := div_factorial_le he
      have hde' := div_factorial_le he'
      have hme : e % n ! < n ! := Nat.mod_lt _ hfn
      have hme' : e' % n ! < n ! := Nat.mod_lt _ hfn
      -- quotient by m! splits into the quotient by n! and the rest
      have split : ∀ x : Nat, x / m ! = c * (x / n !) + (x % n !) / m ! := by
        intro x
        conv_lhs => rw [← Nat.mod_add_div x (n !), hc, Nat.mul_assoc, Nat.add_mul_div_left _ _ hfm]
        rw [hc]; ring
      have bound : ∀ x : Nat, (x % n !) / m ! < c := by
        intro x
        rw [Nat.div_lt_iff_lt_mul hfm, Nat.mul_comm, ← hc]
        exact Nat.mod_lt _ hfn
      have cpos : 0 < c := by
        rcases Nat.eq_zero_or_pos c with h | h
        · subst h; simp at hc; omega
        · exact h
      have key : e / m ! = e' / m ! ↔ e / n ! = e' / n ! ∧ (e % n !) / m ! = (e' % n !) / m ! := by
        rw [split e, split e']
        constructor
        · intro h
          have h1 := bound e
          have h2 := bound e'
          have : e / n ! = e' / n ! := by
            have h3 := congrArg (· / c) h
            simpa [Nat.mul_add_div cpos, Nat.div_eq_of_lt h1, Nat.div_eq_of_lt h2] using h3
          rw [this] at h
          exact ⟨this, by omega⟩
        · rintro ⟨h1, h2⟩
          rw [h1, h2]
      rw [key, ih hmn _ _ hme hme', elem, elem]
      constructor
      · rintro ⟨hq, hsub⟩ i hi
        have hpos : (⟨n - e' / n !, Nat.lt_succ_of_le (Nat.sub_le _ _)⟩ : Fin (n + 1)) =
            ⟨n - e / n !, Nat.lt_succ_of_le (Nat.sub_le _ _)⟩ := by rw [hq]
        rw [hpos]
        set t : Fin (n + 1) := ⟨n - e / n !, Nat.lt_succ_of_le (Nat.sub_le _ _)⟩
        rcases Nat.lt_trichotomy (i : Nat) t with h | h | h
        · rw [ins_lt _ _ _ h] at hi ⊢
          rw [ins_lt _ _ _ h, hsub _ (by simpa using hi)]
        · have : i = t := Fin.ext h
          subst this
          rw [ins_eq, ins_eq]
        · rw [ins_gt _ _ _ h] at hi ⊢
          rw [ins_gt _ _ _ h, hsub _ (by simpa using hi)]
      · intro hall
        set t : Fin (n + 1) := ⟨n - e / n !, Nat.lt_succ_of_le (Nat.sub_le _ _)⟩ with htdef
        set t' : Fin (n + 1) := ⟨n - e' / n !, Nat.lt_succ_of_le (Nat.sub_le _ _)⟩ with htdef'
        have h1 := hall t (by rw [ins_eq]; simpa using hmn)
        have h2 : t = t' := by
          rw [ins_eq] at h1
          have h3 := ins_eq t' (elem n (e' % n !))
          exact (ins t' (elem n (e' % n !))).injective (h1.trans h3.symm)
        have hq : e / n ! = e' / n ! := by
          have := congrArg Fin.val h2
          simp only [htdef, htdef'] at this
          omega
        refine ⟨hq, fun j hj => ?_⟩
        by_cases hjt : (j : Nat) < t
        · have := hall j.castSucc (by rw [ins_lt _ _ _ (by simpa using hjt)]; simpa using hj)
          rw [← h2, ins_lt _ _ _ (by simpa using hjt), ins_lt _ _ _ (by simpa using hjt)] at this
          exact Fin.castSucc_injective _ this
        · have hjt2 : (t : Nat) < j.succ := by simp; omega
          have := hall j.succ (by rw [ins_gt _ _ _ hjt2]; simpa using hj)
          rw [← h2, ins_gt _ _ _ hjt2, ins_gt _ _ _ hjt2] at this
          exact Fin.castSucc_injective _ this
    · subst heq
      constructor
      · intro _ i hi
        have := (elem (n + 1) e i).2
        omega
      · intro _
        rw [Nat.div_eq_of_lt he, Nat.div_eq_of_lt he']

end Snob
