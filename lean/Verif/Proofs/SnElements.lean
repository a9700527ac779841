import Mathlib.Data.Fintype.Perm
import Verif.Proofs.Perm
import Verif.Model.SnElements

/-! # The enumeration of `Sn` is a bijection: helper lemmas -/

namespace Snob

open Snob.Perm Nat

/-- A permutation of `n` points seen as a permutation of `n+1` points fixing the last one. -/
def extend {n : Nat} (τ : Equiv.Perm (Fin n)) : Equiv.Perm (Fin (n + 1)) where
  toFun i := if h : (i : Nat) < n then (τ ⟨i, h⟩).castSucc else i
  invFun i := if h : (i : Nat) < n then (τ.symm ⟨i, h⟩).castSucc else i
  left_inv := by
    intro i
    by_cases h : (i : Nat) < n <;> simp [h]
  right_inv := by
    intro i
    by_cases h : (i : Nat) < n <;> simp [h]

theorem extend_castSucc {n : Nat} (τ : Equiv.Perm (Fin n)) (i : Fin n) :
    extend τ i.castSucc = (τ i).castSucc := by
  simp [extend]

theorem extend_last {n : Nat} (τ : Equiv.Perm (Fin n)) : extend τ (Fin.last n) = Fin.last n := by
  simp [extend]

theorem extend_mul {n : Nat} (σ τ : Equiv.Perm (Fin n)) : extend (σ * τ) = extend σ * extend τ := by
  ext i
  refine Fin.lastCases ?_ (fun i => ?_) i
  · simp [extend_last]
  · simp [extend_castSucc]

theorem extend_one {n : Nat} : extend (1 : Equiv.Perm (Fin n)) = 1 := by
  ext i
  refine Fin.lastCases ?_ (fun i => ?_) i
  · simp [extend_last]
  · simp [extend_castSucc]

theorem extend_inv {n : Nat} (σ : Equiv.Perm (Fin n)) : extend σ⁻¹ = (extend σ)⁻¹ := by
  rw [eq_inv_iff_mul_eq_one, ← extend_mul, inv_mul_cancel, extend_one]

theorem extend_injective {n : Nat} : Function.Injective (extend (n := n)) := by
  intro σ τ h
  ext i
  have := congrArg (fun f : Equiv.Perm (Fin (n + 1)) => ((f i.castSucc : Fin (n + 1)) : Nat)) h
  simpa [extend_castSucc] using this

/-- `τ` with the value `n` (0-based) inserted at position `t` of the one-line notation. -/
def ins {n : Nat} (t : Fin (n + 1)) (τ : Equiv.Perm (Fin n)) : Equiv.Perm (Fin (n + 1)) :=
  extend τ * (cyc t (Fin.last n))⁻¹

theorem cyc_last_inv_apply {n : Nat} (t i : Fin (n + 1)) :
    (((cyc t (Fin.last n))⁻¹ i : Fin (n + 1)) : Nat) =
      if (i : Nat) < t then (i : Nat) else if (i : Nat) = t then n else i - 1 := by
  rw [cyc_inv_apply _ _ (Fin.le_last t)]
  have hi := i.2
  simp only [Fin.val_last]
  have : ((i : Nat) < t ∨ n < (i : Nat)) ↔ (i : Nat) < t := by omega
  simp only [this]

theorem ins_lt {n : Nat} (t : Fin (n + 1)) (τ : Equiv.Perm (Fin n)) (i : Fin (n + 1)) (h : (i : Nat) < t) :
    ins t τ i = (τ ⟨i, by have := t.2; omega⟩).castSucc := by
  have ht := t.2
  have e : ((cyc t (Fin.last n))⁻¹ i : Fin (n + 1)) = (⟨i, by omega⟩ : Fin n).castSucc := by
    apply Fin.ext
    rw [cyc_last_inv_apply, if_pos h]
    rfl
  show extend τ _ = _
  rw [e, extend_castSucc]

theorem ins_eq {n : Nat} (t : Fin (n + 1)) (τ : Equiv.Perm (Fin n)) : ins t τ t = Fin.last n := by
  have e : ((cyc t (Fin.last n))⁻¹ t : Fin (n + 1)) = Fin.last n := by
    apply Fin.ext
    rw [cyc_last_inv_apply, if_neg (by omega), if_pos rfl]
    rfl
  show extend τ _ = _
  rw [e, extend_last]

theorem ins_gt {n : Nat} (t : Fin (n + 1)) (τ : Equiv.Perm (Fin n)) (i : Fin (n + 1)) (h : (t : Nat) < i) :
    ins t τ i = (τ ⟨i - 1, by have := i.2; omega⟩).castSucc := by
  have hi := i.2
  have e : ((cyc t (Fin.last n))⁻¹ i : Fin (n + 1)) = (⟨i - 1, by omega⟩ : Fin n).castSucc := by
    apply Fin.ext
    rw [cyc_last_inv_apply, if_neg (by omega), if_neg (by omega)]
    rfl
  show extend τ _ = _
  rw [e, extend_castSucc]

/-- The permutation with number `e` in the enumeration of `Sn` (specification side). -/
def elem : (n : Nat) → Nat → Equiv.Perm (Fin n)
  | 0, _ => 1
  | n + 1, e => ins ⟨n - e / n !, Nat.lt_succ_of_le (Nat.sub_le _ _)⟩ (elem n (e % n !))

theorem mod_mod_factorial {m n : Nat} (h : m ≤ n) (e : Nat) : e % n ! % m ! = e % m ! :=
  Nat.mod_mod_of_dvd _ (Nat.factorial_dvd_factorial h)

/-! ## The digit loop -/

theorem digitLoop_eq (n lo : Nat) (hlo : lo ≤ n) (e : Nat) (he : e < n !) :
    ∃ s : Arr, digitLoop n lo e = some (s, ((e % lo ! : Nat) : Int)) ∧ s.length = n ∧
      ∀ i : Nat, lo < i → i ≤ n → s[i - 1]? = some (some ((i : Int) - ((e % i ! / (i - 1)! : Nat) : Int))) := by
  obtain ⟨s, h, hl, he', hs⟩ := forDown_inv (lo := (lo : Int) + 1) (hi := n)
    (s := ((List.replicate n (some (0 : Int)) : Arr), (e : Int)))
    (body := fun i se => do
      let f : Int := (Nat.factorial (i - 1).toNat : Nat)
      let s ← wr se.1 (i - 1) (i - Int.tdiv se.2 f)
      some (s, Int.tmod se.2 f))
    (fun i se => se.1.length = n ∧ se.2 = ((e % (i.toNat)! : Nat) : Int) ∧
      ∀ j : Nat, i < j → j ≤ n → se.1[j - 1]? = some (some ((j : Int) - ((e % j ! / (j - 1)! : Nat) : Int))))
    (by omega)
    ⟨by simp, by simp [Nat.mod_eq_of_lt he], by intro j h1 h2; omega⟩
    (by
      rintro i ⟨s, e1⟩ h1 h2 ⟨hl, rfl, hs⟩
      obtain ⟨k, rfl⟩ : ∃ k : Nat, i = (k : Int) + 1 := ⟨(i - 1).toNat, by omega⟩
      have hk : k < n := by omega
      have ek : ((k : Int) + 1 - 1) = (k : Int) := by omega
      have ek2 : ((k : Int) + 1).toNat = k + 1 := by omega
      simp only [ek, ek2, Int.toNat_natCast]
      refine ⟨(s.set k (some ((k : Int) + 1 - ((e % (k + 1)! / k ! : Nat) : Int))), ((e % k ! : Nat) : Int)), ?_, by simpa using hl, rfl, ?_⟩
      · simp only [Option.bind_eq_bind]
        rw [wr_ofNat _ _ _ (by simp only at hl; omega), Option.bind_some]
        rw [← Int.ofNat_tdiv, ← Int.ofNat_tmod, mod_mod_factorial (Nat.le_succ k)]
      · intro j hj1 hj2
        simp only
        rw [List.getElem?_set]
        by_cases hjk : k = j - 1
        · have : j = k + 1 := by omega
          subst this
          simp only at hl
          simp [hl, hk]
        · rw [if_neg hjk]
          exact hs j (by omega) hj2)
  refine ⟨s.1, ?_, hl, fun i h1 h2 => hs i (by omega) h2⟩
  have : ((lo : Int) + 1 - 1).toNat = lo := by omega
  rw [this] at he'
  unfold digitLoop
  rw [h]
  congr 1
  exact Prod.ext rfl he'

/-! ## The insertion step -/

theorem insertStep_eq {n i : Nat} (p : Arr) (hp : p.length = n) (hi : i < n) (t : Nat) (ht : t ≤ i)
    (hinit : ∀ j < i, ∃ v, p[j]? = some (some v)) :
    ∃ q : Arr, insertStep p ((i : Int) + 1) ((t : Int) + 1) = some q ∧ q.length = n ∧
      (∀ j < t, q[j]? = p[j]?) ∧ q[t]? = some (some ((i : Int) + 1)) ∧
      (∀ j, t < j → j ≤ i → q[j]? = p[j - 1]?) ∧ (∀ j, i < j → q[j]? = p[j]?) := by
  obtain ⟨q, h, hl, hq1, hq2⟩ := forDown_inv (lo := (t : Int) + 1 + 1) (hi := (i : Int) + 1) (s := p)
    (body := fun k p => do
      let v ← rd p (k - 2)
      wr p (k - 1) v)
    (fun k q => q.length = n ∧ (∀ j : Nat, k ≤ j → j ≤ i → q[j]? = p[j - 1]?) ∧
      (∀ j : Nat, ((j : Int) < k ∨ i < j) → q[j]? = p[j]?))
    (by omega)
    ⟨hp, by intro j h1 h2; omega, by intro j _; rfl⟩
    (by
      rintro k q h1 h2 ⟨hl, hq1, hq2⟩
      obtain ⟨m, rfl⟩ : ∃ m : Nat, k = (m : Int) + 2 := ⟨(k - 2).toNat, by omega⟩
      have e1 : (m : Int) + 2 - 2 = (m : Int) := by omega
      have e2 : (m : Int) + 2 - 1 = ((m + 1 : Nat) : Int) := by omega
      rw [e1, e2]
      obtain ⟨v, hv⟩ := hinit m (by omega)
      refine ⟨q.set (m + 1) (some v), ?_, by simpa using hl, ?_, ?_⟩
      · rw [rd_ofNat, hq2 m (by omega), hv]
        simp only [Option.join_some, Option.bind_eq_bind, Option.bind_some]
        rw [wr_ofNat _ _ _ (by omega)]
      · intro j h3 h4
        rw [List.getElem?_set]
        by_cases hj : m + 1 = j
        · subst hj
          simp [show m + 1 < q.length by omega, hv]
        · rw [if_neg hj]
          exact hq1 j (by omega) h4
      · intro j hj
        rw [List.getElem?_set, if_neg (by omega)]
        exact hq2 j (by omega))
  refine ⟨q.set t (some ((i : Int) + 1)), ?_, by simpa using hl, ?_, ?_, ?_, ?_⟩
  · unfold insertStep
    simp only [Option.bind_eq_bind] at h ⊢
    rw [h, Option.bind_some]
    have e2 : (t : Int) + 1 - 1 = (t : Int) := by omega
    rw [e2, wr_ofNat _ _ _ (by omega)]
  · intro j hj
    rw [List.getElem?_set, if_neg (by omega)]
    exact hq2 j (by omega)
  · rw [List.getElem?_set]
    simp [show t < q.length by omega]
  · intro j h1 h2
    rw [List.getElem?_set, if_neg (by omega)]
    exact hq1 j (by omega) h2
  · intro j h1
    rw [List.getElem?_set, if_neg (by omega)]
    exact hq2 j (by omega)

/-- Buffer of length `n` whose first `i` cells hold `τ` and whose other cells hold `j+1`. -/
def Prefix {i : Nat} (n : Nat) (τ : Equiv.Perm (Fin i)) (p : Arr) : Prop :=
  p.length = n ∧ (∀ j : Fin i, p[(j : Nat)]? = some (some ((τ j : Int) + 1))) ∧
    ∀ j : Nat, i ≤ j → j < n → p[j]? = some (some ((j : Int) + 1))

theorem insertStep_prefix {n i : Nat} (hi : i < n) (τ : Equiv.Perm (Fin i)) (p : Arr) (hp : Prefix n τ p)
    (t : Fin (i + 1)) :
    ∃ q, insertStep p ((i : Int) + 1) (((t : Nat) : Int) + 1) = some q ∧ Prefix n (ins t τ) q := by
  obtain ⟨hl, h1, h2⟩ := hp
  have ht := t.2
  obtain ⟨q, hq, hql, q1, q2, q3, q4⟩ := insertStep_eq (n := n) (i := i) p hl hi t (by omega)
    (fun j hj => ⟨_, h1 ⟨j, hj⟩⟩)
  refine ⟨q, hq, hql, ?_, ?_⟩
  · intro j
    have hj := j.2
    rcases Nat.lt_trichotomy (j : Nat) t with h | h | h
    · rw [q1 j h, ins_lt t τ j h]
      have := h1 ⟨j, by omega⟩
      simpa using this
    · have : j = t := Fin.ext h
      subst this
      rw [q2, ins_eq]
      simp
    · rw [q3 j h (by omega), ins_gt t τ j h]
      have := h1 ⟨j - 1, by omega⟩
      simpa using this
  · intro j hj1 hj2
    rw [q4 j (by omega)]
    exact h2 j (by omega) hj2

theorem insertLoop_eq (n lo : Nat) (hlo : lo ≤ n) (e : Nat) (s p : Arr)
    (hs : ∀ i : Nat, lo < i → i ≤ n → s[i - 1]? = some (some ((i : Int) - ((e % i ! / (i - 1)! : Nat) : Int))))
    (hp : Prefix n (elem lo (e % lo !)) p) :
    insertLoop n (lo + 1) s p = some (enc (elem n (e % n !))) := by
  obtain ⟨q, h, hq⟩ := forUp_inv (lo := (lo : Int) + 1) (hi := (n : Int) + 1) (s := p)
    (body := fun i p => do
      let t ← rd s (i - 1)
      insertStep p i t)
    (fun i q => ∃ k : Nat, i = (k : Int) + 1 ∧ Prefix n (elem k (e % k !)) q)
    (by omega)
    ⟨lo, rfl, hp⟩
    (by
      rintro i q h1 h2 ⟨k, rfl, hq⟩
      have e1 : ((k : Int) + 1 - 1) = (k : Int) := by omega
      simp only [e1]
      have hsk := hs (k + 1) (by omega) (by omega)
      simp only [Nat.add_sub_cancel] at hsk
      have hlt : e % (k + 1)! / k ! ≤ k := by
        have h3 : e % (k + 1)! < (k + 1)! := Nat.mod_lt _ (Nat.factorial_pos _)
        rw [Nat.factorial_succ] at h3
        have := (Nat.div_lt_iff_lt_mul (Nat.factorial_pos k)).2 h3
        rw [Nat.factorial_succ]
        omega
      have hd : (((k + 1 : Nat) : Int) - ((e % (k + 1)! / k ! : Nat) : Int)) =
          ((k - e % (k + 1)! / k ! : Nat) : Int) + 1 := by omega
      rw [hd] at hsk
      obtain ⟨q', hq', hP⟩ := insertStep_prefix (n := n) (i := k) (by omega) (elem k (e % k !)) q hq
        ⟨k - e % (k + 1)! / k !, Nat.lt_succ_of_le (Nat.sub_le _ _)⟩
      refine ⟨q', ?_, ?_⟩
      · rw [rd_ofNat, hsk]
        exact hq'
      · refine ⟨k + 1, by push_cast; ring, ?_⟩
        rw [elem, mod_mod_factorial (Nat.le_succ k)]
        exact hP)
  unfold insertLoop
  push_cast
  rw [h]
  obtain ⟨k, hk, hq⟩ := hq
  have e3 : k = n := by omega
  subst e3
  rw [eq_enc _ hq.1 hq.2.1]

theorem prefix_identity (n i : Nat) (hi : i ≤ n) (τ : Equiv.Perm (Fin i)) (hτ : τ = 1) :
    Prefix n τ (enc (1 : Equiv.Perm (Fin n))) := by
  subst hτ
  refine ⟨by simp, fun j => ?_, fun j h1 h2 => ?_⟩
  · have hj := j.2
    have := enc_get (1 : Equiv.Perm (Fin n)) ⟨j, by omega⟩
    simpa using this
  · have := enc_get (1 : Equiv.Perm (Fin n)) ⟨j, by omega⟩
    simpa using this

theorem elem_zero (n : Nat) : elem n 0 = 1 := by
  induction n with
  | zero => rfl
  | succ n ih =>
    rw [elem]
    simp only [Nat.zero_div, Nat.sub_zero, Nat.zero_mod, ih]
    have h : cyc (Fin.last n) (Fin.last n) = 1 := by
      ext i
      rw [cyc_apply _ _ (le_refl _)]
      have := i.2
      simp only [Fin.val_last, Equiv.Perm.coe_one, id_eq]
      split_ifs <;> omega
    show ins (Fin.last n) 1 = 1
    rw [ins, extend_one, h]
    simp

theorem element_eq (n : Nat) (e : Nat) (he : e < n !) : element n e = some (enc (elem n e)) := by
  obtain ⟨s, h, -, hs⟩ := digitLoop_eq n 0 (by omega) e he
  unfold element
  rw [identity_eq, h]
  simp only [Option.bind_eq_bind, Option.bind_some]
  rcases n with _ | n
  · have : e = 0 := by simpa using he
    subst this
    rfl
  · have := insertLoop_eq (n + 1) 1 (by omega) e s (enc 1) (fun i h1 h2 => hs i (by omega) h2)
      (prefix_identity _ _ (by omega) _ (Subsingleton.elim _ _))
    rw [this, Nat.mod_eq_of_lt he]

theorem snsmElement_eq (n m : Nat) (hm : m ≤ n) (e : Nat) (he : e < snsmSize n m) :
    snsmElement n m e = some (enc (elem n (e * m !))) := by
  have he2 : e * m ! < n ! := by
    unfold snsmSize at he
    exact lt_of_lt_of_le (Nat.mul_lt_mul_of_pos_right he (Nat.factorial_pos m)) (Nat.div_mul_le_self _ _)
  obtain ⟨s, h, -, hs⟩ := digitLoop_eq n m hm (e * m !) he2
  unfold snsmElement
  rw [identity_eq]
  push_cast at h
  rw [h]
  simp only [Option.bind_eq_bind, Option.bind_some]
  have := insertLoop_eq n m hm (e * m !) s (enc 1) hs (prefix_identity _ _ hm _ (by
    rw [Nat.mul_mod_left, elem_zero]))
  rw [this, Nat.mod_eq_of_lt he2]

/-! ## Index -/

theorem splitTop_ins {n : Nat} (t : Fin (n + 1)) (τ : Equiv.Perm (Fin n)) :
    splitTop (n + 1) (enc (ins t τ)) = some ((n : Int) - (t : Nat), enc τ) := by
  have ht := t.2
  have hrd : ∀ i : Fin (n + 1), rd (enc (ins t τ)) ((i : Nat) : Int) = some ((ins t τ i : Int) + 1) :=
    rd_enc (ins t τ)
  have hlast : ∀ j : Fin n, ((τ j : Nat) : Int) + 1 ≠ ((n + 1 : Nat) : Int) := by
    intro j; have := (τ j).2; omega
  unfold splitTop
  have h1 := forUpE_inv (R := Int × Arr) (lo := 0) (hi := ((n + 1 : Nat) : Int)) (s := raw (n + 1 - 1))
    (body := fun i tau => do
      let v ← rd (enc (ins t τ)) i
      if v = ((n + 1 : Nat) : Int) then some (.inl (i, tau))
      else do
        let tau ← wr tau i v
        some (.inr tau))
    (fun i tau => i ≤ (t : Nat) ∧ tau.length = n ∧ ∀ j : Fin n, (j : Int) < i →
      tau[(j : Nat)]? = some (some ((τ j : Int) + 1)))
    (fun r => r.1 = (t : Nat) ∧ r.2.length = n ∧ ∀ j : Fin n, (j : Nat) < (t : Nat) →
      r.2[(j : Nat)]? = some (some ((τ j : Int) + 1)))
    (by omega)
    ⟨by omega, by simp [raw], by intro j hj; omega⟩
    (by
      rintro i tau h0 h2 ⟨hit, hl, hw⟩
      obtain ⟨k, rfl⟩ := Int.eq_ofNat_of_zero_le h0
      have hk : k < n + 1 := by omega
      have hkt : k ≤ (t : Nat) := by omega
      have := hrd ⟨k, hk⟩
      simp only at this
      rw [this]
      rcases Nat.lt_or_eq_of_le hkt with hlt | heq
      · right
        have hkn : k < n := by omega
        rw [ins_lt t τ ⟨k, hk⟩ hlt]
        refine ⟨tau.set k (some ((τ ⟨k, hkn⟩ : Int) + 1)), ?_, by omega, by simpa using hl, ?_⟩
        · have hne := hlast ⟨k, hkn⟩
          simp only [Option.bind_eq_bind, Option.bind_some, Fin.val_castSucc]
          rw [if_neg hne, wr_ofNat _ _ _ (by omega)]
          rfl
        · intro j hj
          rw [List.getElem?_set]
          by_cases hjk : k = (j : Nat)
          · subst hjk; simp [hl]
          · rw [if_neg hjk]; exact hw j (by omega)
      · left
        have hkt' : (⟨k, hk⟩ : Fin (n + 1)) = t := Fin.ext heq
        rw [hkt', ins_eq]
        exact ⟨((k : Int), tau), by simp, by simp [heq], hl, fun j hj => hw j (by omega)⟩)
  simp only [Option.bind_eq_bind] at h1 ⊢
  rcases h1 with ⟨⟨i, tau⟩, he, hi, hl, hw⟩ | ⟨tau, -, hp, -⟩
  · rw [he]
    simp only at hi hl hw
    subst hi
    simp only [Option.bind_some]
    obtain ⟨tau', he', hl', hw'⟩ := forUp_inv (lo := ((t : Nat) : Int) + 1) (hi := ((n + 1 : Nat) : Int)) (s := tau)
      (body := fun i tau => (rd (enc (ins t τ)) i).bind fun v => wr tau (i - 1) v)
      (fun i tau => tau.length = n ∧ ∀ j : Fin n, (j : Int) + 1 < i →
        tau[(j : Nat)]? = some (some ((τ j : Int) + 1)))
      (by omega) ⟨hl, fun j hj => hw j (by omega)⟩
      (by
        rintro i tau h0 h2 ⟨hl, hw⟩
        obtain ⟨k, rfl⟩ : ∃ k : Nat, i = ((k + 1 : Nat) : Int) := ⟨(i - 1).toNat, by omega⟩
        have hk : k + 1 < n + 1 := by omega
        have := hrd ⟨k + 1, hk⟩
        simp only at this
        rw [this, ins_gt t τ ⟨k + 1, hk⟩ (by simp only; omega)]
        have e1 : (((k + 1 : Nat) : Int) - 1) = (k : Int) := by omega
        refine ⟨tau.set k (some ((τ ⟨k, by omega⟩ : Int) + 1)), ?_, by simpa using hl, ?_⟩
        · simp only [Option.bind_some]
          rw [e1, wr_ofNat _ _ _ (by omega)]
          simp
        · intro j hj
          rw [List.getElem?_set]
          by_cases hjk : k = (j : Nat)
          · subst hjk; simp [hl]
          · rw [if_neg hjk]; exact hw j (by omega))
    rw [he', Option.bind_some, eq_enc τ hl' (fun j => hw' j (by have := j.2; omega))]
    congr 2
    push_cast
    ring
  · omega

theorem index_ins {n : Nat} (t : Fin (n + 2)) (τ : Equiv.Perm (Fin (n + 1))) (x : Int)
    (hx : index (n + 1) (enc τ) = some x) :
    index (n + 2) (enc (ins t τ)) = some (x + (((n : Int) + 1) - (t : Nat)) * ((n + 1)! : Nat)) := by
  rw [index]
  have hl : (enc (ins t τ)).length = n + 2 := length_enc _
  have h0 : ¬ ((enc (ins t τ)).length ≠ n + 2) := by omega
  simp only [if_neg h0, splitTop_ins, Option.bind_eq_bind, Option.bind_some, hx]
  push_cast
  rfl

theorem index_elem (n : Nat) (hn : 1 ≤ n) (e : Nat) (he : e < n !) : index n (enc (elem n e)) = some (e : Int) := by
  induction n generalizing e with
  | zero => omega
  | succ n ih =>
    rcases n with _ | n
    · have : e = 0 := by simpa using he
      subst this
      rfl
    · have hlt : e % (n + 1)! < (n + 1)! := Nat.mod_lt _ (Nat.factorial_pos _)
      rw [elem, index_ins _ _ _ (ih (by omega) _ hlt)]
      congr 1
      have hd : e / (n + 1)! ≤ n + 1 := by
        rw [Nat.factorial_succ (n + 1)] at he
        have := (Nat.div_lt_iff_lt_mul (Nat.factorial_pos (n + 1))).2 he
        omega
      have h1 : ((n : Int) + 1) - ((n + 1 - e / (n + 1)! : Nat) : Int) = ((e / (n + 1)! : Nat) : Int) := by omega
      simp only
      rw [h1]
      have := Nat.mod_add_div e (n + 1)!
      have h2 : (((e % (n + 1)! + (n + 1)! * (e / (n + 1)!) : Nat)) : Int) = (e : Int) := by rw [this]
      rw [← h2]
      push_cast
      ring

theorem elem_injOn (n : Nat) (e e' : Nat) (he : e < n !) (he' : e' < n !) (h : elem n e = elem n e') : e = e' := by
  rcases n with _ | n
  · simp at he he'; omega
  · have h1 := index_elem (n + 1) (by omega) e he
    have h2 := index_elem (n + 1) (by omega) e' he'
    rw [h, h2] at h1
    have : (e' : Int) = e := Option.some.inj h1
    omega

/-- The enumeration as an equivalence. -/
noncomputable def elemEquiv (n : Nat) : Fin (n !) ≃ Equiv.Perm (Fin n) :=
  Equiv.ofBijective (fun e => elem n e) (by
    rw [Fintype.bijective_iff_injective_and_card]
    refine ⟨fun e e' h => Fin.ext (elem_injOn n e e' e.2 e'.2 h), ?_⟩
    rw [Fintype.card_fin, Fintype.card_perm, Fintype.card_fin])

theorem elemEquiv_apply (n : Nat) (e : Fin (n !)) : elemEquiv n e = elem n e := rfl

theorem exists_elem (n : Nat) (σ : Equiv.Perm (Fin n)) : ∃ e, e < n ! ∧ elem n e = σ := by
  obtain ⟨e, rfl⟩ := (elemEquiv n).surjective σ
  exact ⟨e, e.2, rfl⟩

end Snob
