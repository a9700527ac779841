import Verif.Model.Mem

/-! # Reasoning rules for the memory model -/

namespace Snob

variable {S R : Type}

theorem rd_ofNat (a : Arr) (i : Nat) : rd a (i : Int) = (a[i]?).join := by
  simp [rd]

theorem wr_ofNat (a : Arr) (i : Nat) (v : Int) (h : i < a.length) :
    wr a (i : Int) v = some (a.set i (some v)) := by
  simp [wr, h]

theorem iterUp_inv (P : Int → S → Prop) {body : Int → S → Option S} (k : Nat) :
    ∀ (i : Int) (s : S), P i s →
    (∀ j s, i ≤ j → j < i + k → P j s → ∃ s', body j s = some s' ∧ P (j + 1) s') →
    ∃ s', iterUp body k i s = some s' ∧ P (i + k) s' := by
  induction k with
  | zero => intro i s h _; exact ⟨s, rfl, by simpa using h⟩
  | succ k ih =>
    intro i s h hb
    obtain ⟨s1, h1, hP⟩ := hb i s (Int.le_refl _) (by omega) h
    obtain ⟨s2, h2, hP2⟩ := ih (i + 1) s1 hP (fun j s hj hj2 => hb j s (by omega) (by omega))
    refine ⟨s2, by simp [iterUp, h1, h2], ?_⟩
    have : i + 1 + (k : Int) = i + ((k + 1 : Nat) : Int) := by omega
    rwa [this] at hP2

/-- Invariant rule for `for(i=lo;i<hi;i++)`. -/
theorem forUp_inv (P : Int → S → Prop) {lo hi : Int} {s : S} {body : Int → S → Option S}
    (hle : lo ≤ hi) (h0 : P lo s)
    (hb : ∀ i s, lo ≤ i → i < hi → P i s → ∃ s', body i s = some s' ∧ P (i + 1) s') :
    ∃ s', forUp lo hi s body = some s' ∧ P hi s' := by
  have := iterUp_inv P (hi - lo).toNat lo s h0 (fun j s h1 h2 => hb j s h1 (by omega))
  have e : lo + ((hi - lo).toNat : Int) = hi := by omega
  rwa [e] at this

theorem iterDown_inv (P : Int → S → Prop) {body : Int → S → Option S} (k : Nat) :
    ∀ (i : Int) (s : S), P i s →
    (∀ j s, i - k < j → j ≤ i → P j s → ∃ s', body j s = some s' ∧ P (j - 1) s') →
    ∃ s', iterDown body k i s = some s' ∧ P (i - k) s' := by
  induction k with
  | zero => intro i s h _; exact ⟨s, rfl, by simpa using h⟩
  | succ k ih =>
    intro i s h hb
    obtain ⟨s1, h1, hP⟩ := hb i s (by omega) (by omega) h
    obtain ⟨s2, h2, hP2⟩ := ih (i - 1) s1 hP (fun j s hj hj2 => hb j s (by omega) (by omega))
    refine ⟨s2, by simp [iterDown, h1, h2], ?_⟩
    have : i - 1 - (k : Int) = i - ((k + 1 : Nat) : Int) := by omega
    rwa [this] at hP2

/-- Invariant rule for `for(i=hi;i>=lo;i--)`. -/
theorem forDown_inv (P : Int → S → Prop) {lo hi : Int} {s : S} {body : Int → S → Option S}
    (hle : lo ≤ hi + 1) (h0 : P hi s)
    (hb : ∀ i s, lo ≤ i → i ≤ hi → P i s → ∃ s', body i s = some s' ∧ P (i - 1) s') :
    ∃ s', forDown hi lo s body = some s' ∧ P (lo - 1) s' := by
  have := iterDown_inv P (hi - lo + 1).toNat hi s h0 (fun j s h1 h2 => hb j s (by omega) (by omega))
  have e : hi - ((hi - lo + 1).toNat : Int) = lo - 1 := by omega
  rwa [e] at this

theorem iterUpE_inv (P : Int → S → Prop) (Q : R → Prop) {body : Int → S → Option (R ⊕ S)} (k : Nat) :
    ∀ (i : Int) (s : S), P i s →
    (∀ j s, i ≤ j → j < i + k → P j s →
      (∃ r, body j s = some (.inl r) ∧ Q r) ∨ ∃ s', body j s = some (.inr s') ∧ P (j + 1) s') →
    (∃ r, iterUpE body k i s = some (.inl r) ∧ Q r) ∨
      ∃ s', iterUpE body k i s = some (.inr s') ∧ P (i + k) s' := by
  induction k with
  | zero => intro i s h _; exact .inr ⟨s, rfl, by simpa using h⟩
  | succ k ih =>
    intro i s h hb
    rcases hb i s (Int.le_refl _) (by omega) h with ⟨r, hr, hQ⟩ | ⟨s1, h1, hP⟩
    · exact .inl ⟨r, by simp [iterUpE, hr], hQ⟩
    · have := ih (i + 1) s1 hP (fun j s hj hj2 => hb j s (by omega) (by omega))
      have e : i + 1 + (k : Int) = i + ((k + 1 : Nat) : Int) := by omega
      rw [e] at this
      simpa [iterUpE, h1] using this

/-- Invariant rule for loops with early exit. -/
theorem forUpE_inv (P : Int → S → Prop) (Q : R → Prop) {lo hi : Int} {s : S}
    {body : Int → S → Option (R ⊕ S)} (hle : lo ≤ hi) (h0 : P lo s)
    (hb : ∀ i s, lo ≤ i → i < hi → P i s →
      (∃ r, body i s = some (.inl r) ∧ Q r) ∨ ∃ s', body i s = some (.inr s') ∧ P (i + 1) s') :
    (∃ r, forUpE lo hi s body = some (.inl r) ∧ Q r) ∨
      ∃ s', forUpE lo hi s body = some (.inr s') ∧ P hi s' := by
  have := iterUpE_inv P Q (hi - lo).toNat lo s h0 (fun j s h1 h2 => hb j s h1 (by omega))
  have e : lo + ((hi - lo).toNat : Int) = hi := by omega
  rwa [e] at this

end Snob
